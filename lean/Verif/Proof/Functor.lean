import Verif.Model.Functor
import Verif.Proof.FlatDot
import Verif.Proof.Contract
import Verif.Proof.Canon
import Verif.Proof.LocalOne

/-! Lemmas for C67: the plan of matrix products. -/

set_option linter.unusedSectionVars false

namespace Verif
namespace Functor
variable {Q K : Type} [DecidableEq Q]

theorem sum_getElem? {α : Type} [AddCommMonoid K] (f : α → K) (l : List α) (n : Nat) (h : l.length ≤ n) :
    ((List.range n).map fun i => (l[i]?.map f).getD 0).sum = (l.map f).sum := by
  induction l generalizing n with
  | nil => simp
  | cons a t ih =>
    cases n with
    | zero => simp at h
    | succ n =>
      rw [List.range_succ_eq_map, List.map_cons, List.sum_cons, List.map_map]
      have := ih n (by simpa using h)
      simp only [Function.comp_def, List.getElem?_cons_succ, List.getElem?_cons_zero, Option.map_some, Option.getD_some, List.map_cons, List.sum_cons]
      rw [this]

theorem sum_filterMap' {α β : Type} [AddCommMonoid K] (g : α → Option β) (f : β → K) (l : List α) :
    ((l.filterMap g).map f).sum = (l.map fun a => ((g a).map f).getD 0).sum := by
  induction l with
  | nil => rfl
  | cons a t ih =>
    rw [List.filterMap_cons, List.map_cons, List.sum_cons]
    cases h : g a with
    | none => simp [ih]
    | some b => simp [ih]

theorem mem_interleave {α : Type} {nc : Nat} {l : List (Nat × α)} {e : Nat × α} (h : e ∈ interleave nc l) : e ∈ l := by
  unfold interleave at h
  obtain ⟨i, -, h⟩ := List.mem_flatMap.1 h
  obtain ⟨ic, -, h⟩ := List.mem_filterMap.1 h
  exact (List.mem_filter.1 (List.mem_of_getElem? h)).1

theorem sum_interleave {α : Type} [AddCommMonoid K] {nc : Nat} {l : List (Nat × α)} (h : ∀ e ∈ l, e.1 < nc) (f : Nat × α → K) :
    ((interleave nc l).map f).sum = (l.map f).sum := by
  unfold interleave
  rw [sum_flatMap']
  simp only [sum_filterMap']
  rw [sum_comm']
  have e1 : ∀ ic, ((List.range l.length).map fun i => (((l.filter fun e => e.1 == ic)[i]?).map f).getD 0).sum = ((l.filter fun e => e.1 == ic).map f).sum :=
    fun ic => sum_getElem? f _ _ (List.length_filter_le _ _)
  rw [sum_map_congr' _ _ _ fun ic _ => e1 ic]
  clear e1
  induction l with
  | nil => simp
  | cons a t ih =>
    have ih := ih fun e he => h e (List.mem_cons_of_mem _ he)
    rw [List.map_cons, List.sum_cons, ← ih]
    have ha := h a List.mem_cons_self
    have e2 : ∀ ic, (((a :: t).filter fun e => e.1 == ic).map f).sum = (if ic = a.1 then f a else 0) + ((t.filter fun e => e.1 == ic).map f).sum := by
      intro ic
      rw [List.filter_cons]
      by_cases e : a.1 = ic
      · simp [e]
      · simp [e, Ne.symm e]
    rw [sum_map_congr' _ _ _ fun ic _ => e2 ic, sum_map_add', sum_map_ite_eq' _ List.nodup_range, if_pos (List.mem_range.2 ha)]

end Functor

namespace Flat
open Functor
variable {Q K : Type} [DecidableEq Q]

/-- Changing the chunk at `i`. -/
theorem pack_modify [AddCommMonoid K] {l : List (List Q × List Nat × List K)} (h : Chunked l) {i : Nat} (hi : i < l.length) {xs : List K}
    (hx : xs.length = l[i].2.1.prod) :
    ∃ l', Chunked l' ∧ sliceAdd (pack l).data ((pack l).idxs.getD i 0) xs = (pack l').data ∧ (l'.map fun e => e.1) = (l.map fun e => e.1) ∧
      (l'.map fun e => e.2.1) = (l.map fun e => e.2.1) ∧
      ∀ x, entryL id l' x = entryL id l x + blockEntry (l[i].1, Arr.ofList l[i].2.1 xs) x := by
  refine ⟨l.modify i fun e => (e.1, e.2.1, List.zipWith (· + ·) e.2.2 xs), ?_, ?_, ?_, ?_, ?_⟩
  · intro e he
    obtain ⟨j, hj, rfl⟩ := List.mem_iff_getElem.1 he
    rw [List.length_modify] at hj
    rw [List.getElem_modify]
    split_ifs with e
    · subst e
      simp [h _ (List.getElem_mem hi), hx]
    · exact h _ (List.getElem_mem hj)
  · rw [pack_idxs h i hi.le]
    have hi' : i < (l.map fun e => e.2.2).length := by simpa using hi
    have := sliceAdd_flatten (l.map fun e => e.2.2) i hi' xs (by simp [h _ (List.getElem_mem hi), hx])
    simp only [pack]
    rw [this]
    congr 1
    exact (map_modify_comm l i (fun e => (e.1, e.2.1, List.zipWith (· + ·) e.2.2 xs)) (fun m => List.zipWith (· + ·) m xs) (fun e => e.2.2) fun a => rfl).symm
  · exact map_modify_same _ _ _ _ fun a => rfl
  · exact map_modify_same _ _ _ _ fun a => rfl
  · intro x
    unfold entryL
    have hc : l[i].2.2.length = l[i].2.1.prod := h _ (List.getElem_mem hi)
    rw [sum_modify l i hi _ _ (blockEntry (l[i].1, Arr.ofList l[i].2.1 xs) x)]
    simp only [List.map_id]
    rw [blockEntry_zipWith _ _ _ _ hc hx]

/-- Running a plan adds the blocks of its products. -/
theorem run_pack [CommRing K] (a b : List K) (p : List (Nat × Gemm)) {l : List (List Q × List Nat × List K)} (h : Chunked l)
    (hp : ∀ e ∈ p, ∃ hi : e.1 < l.length, e.2.c = (pack l).idxs.getD e.1 0 ∧ e.2.m * e.2.n = l[e.1].2.1.prod) :
    ∃ l', Chunked l' ∧ run (p.map Prod.snd) a b (pack l).data = (pack l').data ∧ (l'.map fun e => e.1) = (l.map fun e => e.1) ∧
      (l'.map fun e => e.2.1) = (l.map fun e => e.2.1) ∧
      ∀ x, entryL id l' x = entryL id l x +
        (p.map fun e => blockEntry ((l.map fun c => c.1).getD e.1 [], Arr.ofList ((l.map fun c => c.2.1).getD e.1 []) (gemmValues e.2 a b)) x).sum := by
  induction p generalizing l with
  | nil => exact ⟨l, h, rfl, rfl, rfl, fun x => by simp⟩
  | cons e p ih =>
    obtain ⟨hi, hc, hm⟩ := hp e List.mem_cons_self
    obtain ⟨l1, c1, d1, q1, s1, v1⟩ := pack_modify h hi (xs := gemmValues e.2 a b) (by simp [gemmValues, hm])
    have hl : l1.length = l.length := by simpa using congrArg List.length q1
    have hidx : (pack l1).idxs = (pack l).idxs := by simp only [pack, s1]
    obtain ⟨l2, c2, d2, q2, s2, v2⟩ := ih c1 fun e' he' => by
      obtain ⟨hi', hc', hm'⟩ := hp e' (List.mem_cons_of_mem _ he')
      refine ⟨by omega, by rw [hidx]; exact hc', ?_⟩
      have e1 : (l1.map fun c => c.2.1)[e'.1]'(by simp; omega) = (l.map fun c => c.2.1)[e'.1]'(by simpa using hi') := by simp only [s1]
      rw [List.getElem_map, List.getElem_map] at e1
      rw [e1, hm']
    refine ⟨l2, c2, ?_, q2.trans q1, s2.trans s1, fun x => ?_⟩
    · rw [← d2]
      unfold run
      rw [List.map_cons, List.foldl_cons]
      congr 1
      unfold gemm
      rw [hc, d1]
    · rw [v2 x, v1 x, q1, s1, List.map_cons, List.sum_cons, add_assoc]
      congr 2
      simp [List.getElem?_eq_getElem hi]

end Flat

namespace Functor
open Flat
variable {Q K : Type} [DecidableEq Q]

theorem ravel_one {s i : List Nat} (h : inBox s i = true) (hs : s.prod = 1) : ravel s i = 0 := by
  have := ravel_lt h
  omega

/-- Where an entry of a block is, seen as a matrix whose contracted legs are in front or at the end. -/
theorem offset_eq {s1 sp s2 i1 p i2 : List Nat} (h1 : inBox s1 i1 = true) (hp : inBox sp p = true) (h2 : inBox s2 i2 = true) {t : Bool}
    (ht : t = true → s1.prod = 1) (hf : t = false → s2.prod = 1) :
    ravel (s1 ++ sp ++ s2) (i1 ++ p ++ i2) = if t = true then ravel sp p * (s1 ++ s2).prod + ravel (s1 ++ s2) (i1 ++ i2)
      else ravel (s1 ++ s2) (i1 ++ i2) * sp.prod + ravel sp p := by
  have l1 := inBox_length h1
  have lp := inBox_length hp
  rw [ravel_append (by simp [l1, lp]), ravel_append l1, ravel_append l1, List.prod_append]
  cases t with
  | true =>
    rw [ravel_one h1 (ht rfl), ht rfl]
    simp
  | false =>
    rw [ravel_one h2 (hf rfl), hf rfl]
    simp

/-- `place` tells where the contracted legs are. -/
theorem place_spec {shs : List (List Nat)} {nd u n : Nat} {t : Bool} (hn : 0 < n) (hl : ∀ s ∈ shs, s.length = nd) (h : place shs nd (List.range' u n) = some t) :
    ∀ s ∈ shs, (t = true → (s.take u).prod = 1) ∧ (t = false → (s.drop (u + n)).prod = 1) := by
  obtain ⟨n, rfl⟩ := Nat.exists_eq_succ_of_ne_zero hn.ne'
  have hd : (List.range' u (n + 1)).headD 0 = u := by simp [List.range'_succ]
  have hla : (List.range' u (n + 1)).getLastD 0 = u + n := by
    rw [List.range'_1_concat, List.getLastD_concat]
  have one : ∀ l : List Nat, l.all (· == 1) = true → l.prod = 1 := by
    intro l
    induction l with
    | nil => simp
    | cons a t ih =>
      intro h
      rw [List.all_cons, Bool.and_eq_true, beq_iff_eq] at h
      rw [List.prod_cons, h.1, ih h.2]
  unfold place at h
  rw [hd, hla] at h
  intro s hs
  split_ifs at h with e1 e2 e3
  · simp [List.range'_succ] at e1
  · simp only [Option.some.injEq] at h
    subst h
    refine ⟨fun _ => ?_, fun h => absurd h.symm Bool.false_ne_true⟩
    rw [Bool.or_eq_true, beq_iff_eq] at e2
    rcases e2 with e2 | e2
    · simp [e2]
    · exact one _ (List.all_eq_true.1 e2 s hs)
  · simp only [Option.some.injEq] at h
    subst h
    refine ⟨fun h => absurd h Bool.false_ne_true, fun _ => ?_⟩
    rw [Bool.or_eq_true, beq_iff_eq] at e3
    rcases e3 with e3 | e3
    · rw [List.drop_of_length_le (by rw [hl s hs]; omega), List.prod_nil]
    · exact one _ (List.all_eq_true.1 e3 s hs)

/-- `place` at the end. -/
theorem place_end {shs : List (List Nat)} {u n : Nat} (hn : 0 < n) : ∃ t, place shs (u + n) (List.range' u n) = some t := by
  obtain ⟨n, rfl⟩ := Nat.exists_eq_succ_of_ne_zero hn.ne'
  have hla : (List.range' u (n + 1)).getLastD 0 = u + n := by
    rw [List.range'_1_concat, List.getLastD_concat]
  unfold place
  rw [hla]
  split_ifs with e1 e2 e3
  · exact ⟨_, rfl⟩
  · exact ⟨_, rfl⟩
  · exact ⟨_, rfl⟩
  · exact absurd e3 (by rw [not_not]; simp [Nat.add_assoc])

/-- `place` in front. -/
theorem place_front {shs : List (List Nat)} {nd n : Nat} (hn : 0 < n) : place shs nd (List.range' 0 n) = some true := by
  obtain ⟨n, rfl⟩ := Nat.exists_eq_succ_of_ne_zero hn.ne'
  have hd : (List.range' 0 (n + 1)).headD 0 = 0 := by simp [List.range'_succ]
  unfold place
  rw [hd]
  simp

theorem rest_mid (a n b : Nat) : rest (a + n + b) (List.range' a n) = List.range a ++ List.range' (a + n) b := by
  rw [← freeAxes_mid]
  unfold rest freeAxes
  congr 1
  funext i
  rw [List.contains_eq_mem, decide_not]

section
variable [AddCommGroup Q] [CommRing K]

theorem getD_slice {l : List (List Q × List Nat × List K)} (h : Chunked l) {i : Nat} (hi : i < l.length) {j : Nat} (hj : j < l[i].2.1.prod) :
    (pack l).data.getD ((pack l).idxs.getD i 0 + j) 0 = l[i].2.2.getD j 0 := by
  have hb := pack_block h i hi
  have hc := h _ (List.getElem_mem hi)
  unfold block pySlice at hb
  rw [← hb, List.getD_eq_getElem?_getD, List.getD_eq_getElem?_getD (l := List.take _ _), List.getElem?_take, List.getElem?_drop]
  rw [if_pos]
  have := congrArg List.length hb
  rw [List.length_take, hc] at this
  omega

theorem map_append_iff {a b : List Q} {x y : List (Q × Nat)} (h : x.length = a.length) :
    a ++ b = (x ++ y).map Prod.fst ↔ a = x.map Prod.fst ∧ b = y.map Prod.fst := by
  rw [List.map_append]
  exact ⟨fun e => List.append_inj e (by simp [h]), fun e => by rw [e.1, e.2]⟩

/-- A block with a contracted part in the middle. -/
theorem blockEntry_mid {q1 qp q2 : List Q} {s1 sp s2 : List Nat} {u m v : List (Q × Nat)} (lu : u.length = q1.length) (lm : m.length = qp.length)
    (ls : q1.length = s1.length) (lp : qp.length = sp.length) (d : List K) :
    blockEntry (q1 ++ qp ++ q2, Arr.ofList (s1 ++ sp ++ s2) d) (u ++ m ++ v) =
      if q1 ++ q2 = (u ++ v).map Prod.fst ∧ inBox (s1 ++ s2) ((u ++ v).map Prod.snd) = true then
        if qp = m.map Prod.fst ∧ inBox sp (m.map Prod.snd) = true then
          d.getD (ravel (s1 ++ sp ++ s2) (u.map Prod.snd ++ m.map Prod.snd ++ v.map Prod.snd)) 0 else 0
      else 0 := by
  have k1 : (q1 ++ qp ++ q2 = (u ++ m ++ v).map Prod.fst ∧ inBox (s1 ++ sp ++ s2) ((u ++ m ++ v).map Prod.snd) = true) ↔
      (q1 ++ q2 = (u ++ v).map Prod.fst ∧ inBox (s1 ++ s2) ((u ++ v).map Prod.snd) = true) ∧ qp = m.map Prod.fst ∧ inBox sp (m.map Prod.snd) = true := by
    simp only [List.append_assoc]
    rw [map_append_iff lu, map_append_iff lm, map_append_iff lu]
    simp only [List.map_append]
    rw [inBox_append (by simp; omega), inBox_append (by simp; omega), inBox_append (by simp; omega)]
    simp only [Bool.and_eq_true]
    tauto
  unfold blockEntry Arr.ofList
  simp only
  by_cases c1 : q1 ++ q2 = (u ++ v).map Prod.fst ∧ inBox (s1 ++ s2) ((u ++ v).map Prod.snd) = true
  · by_cases c2 : qp = m.map Prod.fst ∧ inBox sp (m.map Prod.snd) = true
    · rw [if_pos c1, if_pos c2, if_pos (k1.2 ⟨c1, c2⟩)]
      simp only [List.map_append]
    · rw [if_pos c1, if_neg c2, if_neg fun h => c2 (k1.1 h).2]
  · rw [if_neg c1, if_neg fun h => c1 (k1.1 h).1]

/-- The block that one product of the plan adds. -/
theorem gemm_block {la lb : List (List Q × List Nat × List K)} (ha : Chunked la) (hb : Chunked lb) {i j : Nat} (hi : i < la.length) (hj : j < lb.length)
    {s : List (BondInfo Q)} (hw : ∀ b ∈ s, Dict.WF b) {qa1 qp qa2 qb1 qb2 : List Q} {sa1 sp sa2 sb1 sb2 : List Nat}
    (eqa : la[i].1 = qa1 ++ qp ++ qa2) (esa : la[i].2.1 = sa1 ++ sp ++ sa2) (eqb : lb[j].1 = qb1 ++ qp ++ qb2) (esb : lb[j].2.1 = sb1 ++ sp ++ sb2)
    (hs : IsCombination s qp sp) {e : Gemm} (hm : e.m = (sa1 ++ sa2).prod) (hn : e.n = (sb1 ++ sb2).prod) (hk : e.k = sp.prod)
    (hea : e.a = (pack la).idxs.getD i 0) (heb : e.b = (pack lb).idxs.getD j 0)
    (ta : (e.ta = true → sa1.prod = 1) ∧ (e.ta = false → sa2.prod = 1)) (tb : (e.tb = true → sb1.prod = 1) ∧ (e.tb = false → sb2.prod = 1))
    {u v u' v' : List (Q × Nat)} (lu : u.length = qa1.length) (lv : v.length = qa2.length) (lu' : u'.length = qb1.length) (lv' : v'.length = qb2.length)
    (l1 : qa1.length = sa1.length) (l2 : qa2.length = sa2.length) (l3 : qb1.length = sb1.length) (l4 : qb2.length = sb2.length) :
    blockEntry ((qa1 ++ qa2) ++ (qb1 ++ qb2), Arr.ofList ((sa1 ++ sa2) ++ (sb1 ++ sb2)) (gemmValues e (pack la).data (pack lb).data)) ((u ++ v) ++ (u' ++ v')) =
      ((legIndices s).map fun m => paritySign K e.neg * (blockEntry (la[i].1, Arr.ofList la[i].2.1 la[i].2.2) (u ++ m ++ v) *
        blockEntry (lb[j].1, Arr.ofList lb[j].2.1 lb[j].2.2) (u' ++ m ++ v'))).sum := by
  have lps := hs.lengths
  by_cases cA : qa1 ++ qa2 = (u ++ v).map Prod.fst ∧ inBox (sa1 ++ sa2) ((u ++ v).map Prod.snd) = true
  swap
  · rw [sum_map_zero']
    · unfold blockEntry Arr.ofList
      simp only
      rw [if_neg]
      rintro ⟨h1, h2⟩
      rw [map_append_iff (by simp; omega)] at h1
      rw [List.map_append, inBox_append (by simp; omega), Bool.and_eq_true] at h2
      exact cA ⟨h1.1, h2.1⟩
    · intro m hm'
      rw [eqa, esa, blockEntry_mid lu (by rw [legIndices_length hm']; omega) l1 (by omega), if_neg cA, zero_mul, mul_zero]
  by_cases cB : qb1 ++ qb2 = (u' ++ v').map Prod.fst ∧ inBox (sb1 ++ sb2) ((u' ++ v').map Prod.snd) = true
  swap
  · rw [sum_map_zero']
    · unfold blockEntry Arr.ofList
      simp only
      rw [if_neg]
      rintro ⟨h1, h2⟩
      rw [map_append_iff (by simp; omega)] at h1
      rw [List.map_append, inBox_append (by simp; omega), Bool.and_eq_true] at h2
      exact cB ⟨h1.2, h2.2⟩
    · intro m hm'
      rw [eqb, esb, blockEntry_mid lu' (by rw [legIndices_length hm']; omega) l3 (by omega), if_neg cB, mul_zero, mul_zero]
  set ra := ravel (sa1 ++ sa2) ((u ++ v).map Prod.snd) with hra
  set rb := ravel (sb1 ++ sb2) ((u' ++ v').map Prod.snd) with hrb
  have ba : ra < e.m := by rw [hm]; exact ravel_lt cA.2
  have bb : rb < e.n := by rw [hn]; exact ravel_lt cB.2
  have bx := cA.2
  have by' := cB.2
  rw [List.map_append, inBox_append (by simp; omega), Bool.and_eq_true] at bx by'
  -- the left side
  have hL : blockEntry ((qa1 ++ qa2) ++ (qb1 ++ qb2), Arr.ofList ((sa1 ++ sa2) ++ (sb1 ++ sb2)) (gemmValues e (pack la).data (pack lb).data))
      ((u ++ v) ++ (u' ++ v')) = paritySign K e.neg * ((List.range e.k).map fun k =>
        (pack la).data.getD (e.a + if e.ta then k * e.m + ra else ra * e.k + k) 0 *
        (pack lb).data.getD (e.b + if e.tb then k * e.n + rb else rb * e.k + k) 0).sum := by
    unfold blockEntry Arr.ofList
    simp only
    rw [if_pos]
    swap
    · refine ⟨(map_append_iff (by simp; omega)).2 ⟨cA.1, cB.1⟩, ?_⟩
      rw [List.map_append, inBox_append (by simp; omega), Bool.and_eq_true]
      exact ⟨cA.2, cB.2⟩
    rw [List.map_append (l₁ := u ++ v), ravel_append (by simp; omega), ← hn, ← hra, ← hrb]
    have ht : ra * e.n + rb < e.m * e.n := by nlinarith
    have d1 : (ra * e.n + rb) / e.n = ra := by
      rw [mul_comm, Nat.mul_add_div (by omega), Nat.div_eq_of_lt bb, Nat.add_zero]
    have d2 : (ra * e.n + rb) % e.n = rb := by
      rw [mul_comm, Nat.mul_add_mod, Nat.mod_eq_of_lt bb]
    unfold gemmValues
    rw [List.getD_eq_getElem?_getD, List.getElem?_map, List.getElem?_range ht, Option.map_some, Option.getD_some]
    simp only [d1, d2]
    unfold paritySign
    cases e.neg <;> simp
  rw [hL, sum_map_mul_left']
  congr 1
  -- the right side
  have hR : ∀ m ∈ legIndices s, blockEntry (la[i].1, Arr.ofList la[i].2.1 la[i].2.2) (u ++ m ++ v) *
        blockEntry (lb[j].1, Arr.ofList lb[j].2.1 lb[j].2.2) (u' ++ m ++ v') =
      if qp = m.map Prod.fst ∧ inBox sp (m.map Prod.snd) = true then
        (fun p => (fun k => (pack la).data.getD (e.a + if e.ta then k * e.m + ra else ra * e.k + k) 0 *
          (pack lb).data.getD (e.b + if e.tb then k * e.n + rb else rb * e.k + k) 0) (ravel sp p)) (m.map Prod.snd) else 0 := by
    intro m hm'
    have lm : m.length = qp.length := by rw [legIndices_length hm']; omega
    rw [eqa, esa, eqb, esb, blockEntry_mid lu lm l1 (by omega), blockEntry_mid lu' lm l3 (by omega), if_pos cA, if_pos cB]
    by_cases c : qp = m.map Prod.fst ∧ inBox sp (m.map Prod.snd) = true
    · rw [if_pos c, if_pos c, if_pos c]
      have oA := offset_eq bx.1 c.2 bx.2 ta.1 ta.2
      have oB := offset_eq by'.1 c.2 by'.2 tb.1 tb.2
      have iA := ravel_lt (s := sa1 ++ sp ++ sa2) (i := u.map Prod.snd ++ m.map Prod.snd ++ v.map Prod.snd) (by
        rw [inBox_append (by simp; omega), inBox_append (by simp; omega), bx.1, c.2, bx.2]; rfl)
      have iB := ravel_lt (s := sb1 ++ sp ++ sb2) (i := u'.map Prod.snd ++ m.map Prod.snd ++ v'.map Prod.snd) (by
        rw [inBox_append (by simp; omega), inBox_append (by simp; omega), by'.1, c.2, by'.2]; rfl)
      rw [← getD_slice ha hi (by rw [esa]; exact iA), ← getD_slice hb hj (by rw [esb]; exact iB), ← hea, ← heb, oA, oB, ← hm, ← hn, ← hk,
        ← List.map_append, ← List.map_append, ← hra, ← hrb]
    · rw [if_neg c, if_neg c, zero_mul, if_neg c]
  rw [sum_map_congr' _ _ _ hR, legIndices_sum hw hs (fun p => (fun k => (pack la).data.getD (e.a + if e.ta then k * e.m + ra else ra * e.k + k) 0 *
          (pack lb).data.getD (e.b + if e.tb then k * e.n + rb else rb * e.k + k) 0) (ravel sp p))]
  have := box_sum_ravel sp fun k => (pack la).data.getD (e.a + if e.ta then k * e.m + ra else ra * e.k + k) 0 *
    (pack lb).data.getD (e.b + if e.tb then k * e.n + rb else rb * e.k + k) 0
  rw [← hk] at this
  exact this.symm

theorem combination_split {l1 l2 : List (BondInfo Q)} {qs : List Q} {sh : List Nat} (h : IsCombination (l1 ++ l2) qs sh) :
    ∃ q1 q2 s1 s2, qs = q1 ++ q2 ∧ sh = s1 ++ s2 ∧ IsCombination l1 q1 s1 ∧ IsCombination l2 q2 s2 := by
  induction l1 generalizing qs sh with
  | nil => exact ⟨[], qs, [], sh, rfl, rfl, .nil, h⟩
  | cons b t ih =>
    cases h with
    | cons h1 h2 =>
      obtain ⟨q1, q2, s1, s2, rfl, rfl, c1, c2⟩ := ih h2
      exact ⟨_ :: q1, q2, _ :: s1, s2, rfl, rfl, .cons h1 c1, c2⟩

theorem combination_split3 {l1 l2 l3 : List (BondInfo Q)} {qs : List Q} {sh : List Nat} (h : IsCombination (l1 ++ l2 ++ l3) qs sh) :
    ∃ q1 q2 q3 s1 s2 s3, qs = q1 ++ q2 ++ q3 ∧ sh = s1 ++ s2 ++ s3 ∧ IsCombination l1 q1 s1 ∧ IsCombination l2 q2 s2 ∧ IsCombination l3 q3 s3 := by
  obtain ⟨q, q3, s, s3, rfl, rfl, c1, c3⟩ := combination_split h
  obtain ⟨q1, q2, s1, s2, rfl, rfl, c1, c2⟩ := combination_split c1
  exact ⟨q1, q2, q3, s1, s2, s3, rfl, rfl, c1, c2, c3⟩

theorem mapM_forall₂ {α β : Type} {f : α → Option β} {l : List α} {r : List β} (h : l.mapM f = some r) : List.Forall₂ (fun a b => f a = some b) l r := by
  induction l generalizing r with
  | nil =>
    simp only [List.mapM_nil, pure, Option.some.injEq] at h
    subst h
    exact .nil
  | cons a t ih =>
    rw [List.mapM_cons] at h
    cases ha : f a with
    | none => rw [ha] at h; simp at h
    | some b =>
      rw [ha] at h
      cases ht : t.mapM f with
      | none => rw [ht] at h; simp at h
      | some bs =>
        rw [ht] at h
        simp only [Option.bind_eq_bind, Option.bind_some, pure, Option.some.injEq] at h
        subst h
        exact .cons ha (ih ht)

theorem sum_forall₂ {α β : Type} {R : α → β → Prop} {l : List α} {r : List β} (h : List.Forall₂ R l r) {f : α → K} {g : β → K}
    (hfg : ∀ a ∈ l, ∀ b, R a b → g b = f a) : (r.map g).sum = (l.map f).sum := by
  induction h with
  | nil => rfl
  | cons h1 _ ih =>
    rw [List.map_cons, List.map_cons, List.sum_cons, List.sum_cons, hfg _ List.mem_cons_self _ h1, ih fun a ha => hfg a (List.mem_cons_of_mem _ ha)]

/-- Sum over the pairs with equal contracted labels. -/
theorem sum_pairs {la lb : List (List Q × List Nat × List K)} (ia ib : List Nat) (F : Nat × Nat → K) (G : List Q × List Nat × List K → List Q × List Nat × List K → K)
    (hF : ∀ i j, ∀ hi : i < la.length, ∀ hj : j < lb.length, pick ib lb[j].1 = pick ia la[i].1 → F (i, j) = G la[i] lb[j])
    (hG : ∀ a ∈ la, ∀ b ∈ lb, pick ib b.1 ≠ pick ia a.1 → G a b = 0) :
    ((pairs (la.map fun e => e.1) (lb.map fun e => e.1) ia ib).map F).sum = (la.map fun a => (lb.map fun b => G a b).sum).sum := by
  unfold pairs
  rw [sum_flatMap']
  have h1 : ∀ x ∈ (la.map fun e => e.1).zipIdx, ((((lb.map fun e => e.1).zipIdx.filter fun y => pick ib y.1 == pick ia x.1).map fun y => (x.2, y.2)).map F).sum =
      (lb.map fun b => G (la.getD x.2 ([], [], [])) b).sum := by
    rintro ⟨qa, i⟩ hx
    rw [List.mem_zipIdx_iff_getElem?, List.getElem?_map] at hx
    obtain ⟨ea, hx', hqa⟩ := Option.map_eq_some_iff.1 hx
    simp only at hqa hx'
    subst hqa
    obtain ⟨hi, rfl⟩ := List.getElem?_eq_some_iff.1 hx'
    rw [List.map_map, sum_filter']
    have e1 : (lb.map fun b => G (la.getD i ([], [], [])) b) = lb.zipIdx.map fun y => G la[i] y.1 := by
      simp only [List.getD_eq_getElem?_getD, List.getElem?_eq_getElem hi, Option.getD_some]
      conv_lhs => rw [show lb = lb.zipIdx.map Prod.fst by simp]
      rw [List.map_map]
      rfl
    rw [show (lb.map fun e => e.1).zipIdx = lb.zipIdx.map fun p => (p.1.1, p.2) by rw [List.zipIdx_map]; rfl, List.map_map]
    simp only
    rw [e1]
    refine sum_map_congr' _ _ _ ?_
    rintro ⟨eb, j⟩ hy
    rw [List.mem_zipIdx_iff_getElem?] at hy
    simp only at hy
    obtain ⟨hj, rfl⟩ := List.getElem?_eq_some_iff.1 hy
    simp only [Function.comp_apply, beq_iff_eq]
    split_ifs with c
    · exact hF i j hi hj c
    · exact (hG _ (List.getElem_mem hi) _ (List.getElem_mem hj) c).symm
  rw [sum_map_congr' _ _ _ h1]
  have e2 : la.map (fun a => (lb.map fun b => G a b).sum) = (la.map fun e => e.1).zipIdx.map fun x => (lb.map fun b => G (la.getD x.2 ([], [], [])) b).sum := by
    apply List.ext_getElem
    · simp
    · intro i h1 h2
      simp only [List.length_map] at h1
      simp [List.getElem?_eq_getElem h1]
  rw [e2]

theorem pick_mid (a1 s a2 : List (BondInfo Q)) {α : Type} [Zero α] {x1 xp x2 : List α} (h1 : x1.length = a1.length) (hp : xp.length = s.length) :
    pick (List.range' a1.length s.length) (x1 ++ xp ++ x2) = xp := by
  rw [← h1, ← hp]
  exact pick_range' x1 xp x2

theorem pick_rest (a1 s a2 : List (BondInfo Q)) {α : Type} [Zero α] {x1 xp x2 : List α} (h1 : x1.length = a1.length) (hp : xp.length = s.length) :
    pick (rest (x1 ++ xp ++ x2).length (List.range' a1.length s.length)) (x1 ++ xp ++ x2) = x1 ++ x2 := by
  rw [← h1, ← hp, List.length_append, List.length_append, rest_mid]
  exact pick_outer x1 xp x2

theorem signOf_eq (isF : Q → Bool) (ferm : Bool) {b1 : List (BondInfo Q)} {n : Nat} (hn : 0 < n) {q1 q2 : List Q} (h : q1.length = b1.length) :
    signOf isF ferm (List.range' b1.length n) (q1 ++ q2) = (ferm && fermParity isF q1) := by
  obtain ⟨n, rfl⟩ := Nat.exists_eq_succ_of_ne_zero hn.ne'
  have hd : (List.range' b1.length (n + 1)).headD 0 = b1.length := by simp [List.range'_succ]
  unfold signOf fermParity
  rw [hd, ← h, List.take_left' rfl, List.countP_eq_length_filter]
  congr 1

theorem mem_fpairs {a b : List (List Q)} {ia ib : List Nat} {p : Nat × Nat} (h : p ∈ pairs a b ia ib) :
    ∃ (hi : p.1 < a.length) (hj : p.2 < b.length), pick ib b[p.2] = pick ia a[p.1] := by
  unfold pairs at h
  obtain ⟨x, hx, h⟩ := List.mem_flatMap.1 h
  obtain ⟨y, hy, rfl⟩ := List.mem_map.1 h
  rw [List.mem_filter] at hy
  obtain ⟨hi, e1⟩ := List.getElem?_eq_some_iff.1 (List.mem_zipIdx_iff_getElem?.1 hx)
  obtain ⟨hj, e2⟩ := List.getElem?_eq_some_iff.1 (List.mem_zipIdx_iff_getElem?.1 hy.1)
  refine ⟨hi, hj, ?_⟩
  rw [e1, e2]
  exact beq_iff_eq.1 hy.2

theorem forall₂_mem {α β : Type} {R : α → β → Prop} {l : List α} {r : List β} (h : List.Forall₂ R l r) {b : β} (hb : b ∈ r) : ∃ a ∈ l, R a b := by
  induction h with
  | nil => cases hb
  | cons h1 _ ih =>
    rcases List.mem_cons.1 hb with rfl | hb
    · exact ⟨_, List.mem_cons_self, h1⟩
    · obtain ⟨a, ha, hr⟩ := ih hb
      exact ⟨a, List.mem_cons_of_mem _ ha, hr⟩

/-- **The plan**: running it adds to every entry the sum of the products over the contracted legs, with the sign of the legs of `b` before them. -/
theorem plan_run {isF : Q → Bool} {a1 s a2 b1 b2 : List (BondInfo Q)} (hw : ∀ b ∈ s, Dict.WF b) (hs : s ≠ []) {A B C : Flat Q K} (wA : A.WellFormed)
    (wB : B.WellFormed) (wC : C.WellFormed) (cA : Conforms (a1 ++ s ++ a2) (A.toSparse id)) (cB : Conforms (b1 ++ s ++ b2) (B.toSparse id))
    (cC : Conforms ((a1 ++ a2) ++ (b1 ++ b2)) (C.toSparse id)) {ferm : Bool} {p : List Gemm}
    (hp : plan isF A B C (List.range' a1.length s.length) (List.range' b1.length s.length) ferm = some p) :
    ({ C with data := run p A.data B.data C.data } : Flat Q K).WellFormed ∧
      ∀ u v u' v' : List (Q × Nat), u.length = a1.length → v.length = a2.length → u'.length = b1.length → v'.length = b2.length →
        entry (({ C with data := run p A.data B.data C.data } : Flat Q K).toSparse id) ((u ++ v) ++ (u' ++ v')) =
          entry (C.toSparse id) ((u ++ v) ++ (u' ++ v')) + ((legIndices s).map fun m => paritySign K (ferm && fermParity isF (u'.map Prod.fst)) *
            (entry (A.toSparse id) (u ++ m ++ v) * entry (B.toSparse id) (u' ++ m ++ v'))).sum := by
  have hs0 : 0 < s.length := List.length_pos_iff.2 hs
  obtain ⟨la, ha, rfl⟩ := exists_pack wA
  obtain ⟨lb, hb, rfl⟩ := exists_pack wB
  obtain ⟨lc, hc, rfl⟩ := exists_pack wC
  rw [toSparse_pack id ha] at cA
  rw [toSparse_pack id hb] at cB
  rw [toSparse_pack id hc] at cC
  have gA : ∀ e ∈ la, IsCombination (a1 ++ s ++ a2) e.1 e.2.1 := fun e he => by simpa [Arr.ofList] using cA _ (List.mem_map.2 ⟨e, he, rfl⟩)
  have gB : ∀ e ∈ lb, IsCombination (b1 ++ s ++ b2) e.1 e.2.1 := fun e he => by simpa [Arr.ofList] using cB _ (List.mem_map.2 ⟨e, he, rfl⟩)
  have gC : ∀ e ∈ lc, IsCombination ((a1 ++ a2) ++ (b1 ++ b2)) e.1 e.2.1 := fun e he => by simpa [Arr.ofList] using cC _ (List.mem_map.2 ⟨e, he, rfl⟩)
  unfold plan at hp
  by_cases hA0 : (pack la).qs.length = 0
  · rw [if_pos hA0] at hp
    simp only [Option.some.injEq] at hp
    subst hp
    refine ⟨wC, fun u v u' v' _ _ _ _ => ?_⟩
    have : la = [] := by simpa [pack] using hA0
    subst this
    rw [toSparse_pack id ha]
    simp [run, entry]
  rw [if_neg hA0] at hp
  by_cases hB0 : (pack lb).qs.length = 0
  · rw [if_pos hB0] at hp
    cases hp
  rw [if_neg hB0] at hp
  obtain ⟨ta, hta, hp⟩ := Option.bind_eq_some_iff.1 hp
  obtain ⟨tb, htb, hp⟩ := Option.bind_eq_some_iff.1 hp
  obtain ⟨L, hL, hp⟩ := Option.map_eq_some_iff.1 hp
  subst hp
  have hL := mapM_forall₂ hL
  have pl := place_spec hs0 (shs := (pack la).shs) (nd := (a1 ++ s ++ a2).length) (fun x hx => by
    obtain ⟨e, he, rfl⟩ := List.mem_map.1 hx
    exact (gA e he).lengths.2) (by
    rw [← hta]
    congr 1
    cases la with
    | nil => simp [pack] at hA0
    | cons e t => exact (gA e List.mem_cons_self).lengths.1.symm)
  have pr := place_spec hs0 (shs := (pack lb).shs) (nd := (b1 ++ s ++ b2).length) (fun x hx => by
    obtain ⟨e, he, rfl⟩ := List.mem_map.1 hx
    exact (gB e he).lengths.2) (by
    rw [← htb]
    congr 1
    cases lb with
    | nil => simp [pack] at hB0
    | cons e t => exact (gB e List.mem_cons_self).lengths.1.symm)
  -- one pair
  have key : ∀ x ∈ pairs (pack la).qs (pack lb).qs (List.range' a1.length s.length) (List.range' b1.length s.length), ∀ y : Nat × Gemm,
      (if (pack lc).qs.contains (outRow (List.range' a1.length s.length) (List.range' b1.length s.length) ((pack la).qs.getD x.1 []) ((pack lb).qs.getD x.2 [])) = true then
        some ((pack lc).qs.idxOf (outRow (List.range' a1.length s.length) (List.range' b1.length s.length) ((pack la).qs.getD x.1 []) ((pack lb).qs.getD x.2 [])),
          Gemm.mk ta tb (pick (rest ((pack la).shs.getD x.1 []).length (List.range' a1.length s.length)) ((pack la).shs.getD x.1 [])).prod
            (pick (rest ((pack lb).shs.getD x.2 []).length (List.range' b1.length s.length)) ((pack lb).shs.getD x.2 [])).prod
            (pick (List.range' a1.length s.length) ((pack la).shs.getD x.1 [])).prod ((pack la).idxs.getD x.1 0) ((pack lb).idxs.getD x.2 0)
            ((pack lc).idxs.getD ((pack lc).qs.idxOf (outRow (List.range' a1.length s.length) (List.range' b1.length s.length) ((pack la).qs.getD x.1 [])
              ((pack lb).qs.getD x.2 []))) 0)
            (signOf isF ferm (List.range' b1.length s.length) ((pack lb).qs.getD x.2 [])))
        else none) = some y →
      ∃ (hi : x.1 < la.length) (hj : x.2 < lb.length) (hk : y.1 < lc.length), y.2.c = (pack lc).idxs.getD y.1 0 ∧ y.2.m * y.2.n = lc[y.1].2.1.prod ∧
        ∀ u v u' v' : List (Q × Nat), u.length = a1.length → v.length = a2.length → u'.length = b1.length → v'.length = b2.length →
          blockEntry (lc[y.1].1, Arr.ofList lc[y.1].2.1 (gemmValues y.2 (pack la).data (pack lb).data)) ((u ++ v) ++ (u' ++ v')) =
            ((legIndices s).map fun m => paritySign K (ferm && fermParity isF (u'.map Prod.fst)) *
              (blockEntry (la[x.1].1, Arr.ofList la[x.1].2.1 la[x.1].2.2) (u ++ m ++ v) *
                blockEntry (lb[x.2].1, Arr.ofList lb[x.2].2.1 lb[x.2].2.2) (u' ++ m ++ v'))).sum := by
    intro x hx y hy
    obtain ⟨hi, hj, hq⟩ := mem_fpairs hx
    have hi' : x.1 < la.length := by simpa [pack] using hi
    have hj' : x.2 < lb.length := by simpa [pack] using hj
    have gq : ∀ (l : List (List Q × List Nat × List K)) (i : Nat) (h : i < l.length), (pack l).qs.getD i [] = l[i].1 ∧ (pack l).shs.getD i [] = l[i].2.1 := by
      intro l i h
      simp [pack, List.getElem?_eq_getElem h]
    obtain ⟨q1, q2⟩ := gq la x.1 hi'
    obtain ⟨q3, q4⟩ := gq lb x.2 hj'
    have hq : pick (List.range' b1.length s.length) lb[x.2].1 = pick (List.range' a1.length s.length) la[x.1].1 := by
      simpa [pack] using hq
    rw [q1, q2, q3, q4] at hy
    obtain ⟨qa1, qp, qa2, sa1, sp, sa2, eqa, esa, ca1, cp, ca2⟩ := combination_split3 (gA _ (List.getElem_mem hi'))
    obtain ⟨qb1, qp', qb2, sb1, sp', sb2, eqb, esb, cb1, cp', cb2⟩ := combination_split3 (gB _ (List.getElem_mem hj'))
    rw [eqa, eqb, pick_mid a1 s a2 ca1.lengths.1 cp.lengths.1, pick_mid b1 s b2 cb1.lengths.1 cp'.lengths.1] at hq
    subst hq
    have := cp.shape_unique cp'
    subst this
    have eo : outRow (List.range' a1.length s.length) (List.range' b1.length s.length) la[x.1].1 lb[x.2].1 = (qa1 ++ qa2) ++ (qb1 ++ qb2) := by
      unfold outRow
      rw [eqa, eqb, pick_rest a1 s a2 ca1.lengths.1 cp.lengths.1, pick_rest b1 s b2 cb1.lengths.1 cp.lengths.1]
    have em : pick (rest la[x.1].2.1.length (List.range' a1.length s.length)) la[x.1].2.1 = sa1 ++ sa2 := by
      rw [esa, pick_rest a1 s a2 ca1.lengths.2 cp.lengths.2]
    have en : pick (rest lb[x.2].2.1.length (List.range' b1.length s.length)) lb[x.2].2.1 = sb1 ++ sb2 := by
      rw [esb, pick_rest b1 s b2 cb1.lengths.2 cp.lengths.2]
    have ek : pick (List.range' a1.length s.length) la[x.1].2.1 = sp := by
      rw [esa, pick_mid a1 s a2 ca1.lengths.2 cp.lengths.2]
    have es : signOf isF ferm (List.range' b1.length s.length) lb[x.2].1 = (ferm && fermParity isF qb1) := by
      rw [eqb, List.append_assoc, signOf_eq isF ferm hs0 cb1.lengths.1]
    rw [eo, em, en, ek, es] at hy
    by_cases hcon : (pack lc).qs.contains ((qa1 ++ qa2) ++ (qb1 ++ qb2)) = true
    swap
    · rw [if_neg hcon] at hy
      cases hy
    rw [if_pos hcon, Option.some.injEq] at hy
    have hmem : (qa1 ++ qa2) ++ (qb1 ++ qb2) ∈ (pack lc).qs := by simpa using hcon
    have hlt := List.idxOf_lt_length_of_mem hmem
    have hlt' : (pack lc).qs.idxOf ((qa1 ++ qa2) ++ (qb1 ++ qb2)) < lc.length := by simpa [pack] using hlt
    have hget := List.getElem_idxOf hlt
    set ic := (pack lc).qs.idxOf ((qa1 ++ qa2) ++ (qb1 ++ qb2)) with hic
    have eqc : lc[ic].1 = (qa1 ++ qa2) ++ (qb1 ++ qb2) := by
      have : lc[ic].1 = (pack lc).qs[ic] := by simp [pack]
      exact this.trans hget
    have esc : lc[ic].2.1 = (sa1 ++ sa2) ++ (sb1 ++ sb2) := by
      have h1 := gC _ (List.getElem_mem hlt')
      rw [eqc] at h1
      exact h1.shape_unique ((ca1.append ca2).append (cb1.append cb2))
    subst hy
    refine ⟨hi', hj', hlt', rfl, ?_, ?_⟩
    · simp only
      rw [esc, List.prod_append (l₁ := sa1 ++ sa2)]
    · intro u v u' v' lu lv lu' lv'
      simp only
      rw [eqc, esc, gemm_block ha hb hi' hj' hw eqa esa eqb esb cp (e := Gemm.mk ta tb (sa1 ++ sa2).prod (sb1 ++ sb2).prod sp.prod ((pack la).idxs.getD x.1 0)
        ((pack lb).idxs.getD x.2 0) ((pack lc).idxs.getD ic 0) (ferm && fermParity isF qb1)) rfl rfl rfl rfl rfl ?_ ?_ (lu.trans ca1.lengths.1.symm)
        (lv.trans ca2.lengths.1.symm) (lu'.trans cb1.lengths.1.symm) (lv'.trans cb2.lengths.1.symm) (ca1.lengths.1.trans ca1.lengths.2.symm)
        (ca2.lengths.1.trans ca2.lengths.2.symm) (cb1.lengths.1.trans cb1.lengths.2.symm) (cb2.lengths.1.trans cb2.lengths.2.symm)]
      · refine sum_map_congr' _ _ _ fun m hm => ?_
        by_cases e : qb1 = u'.map Prod.fst
        · rw [e]
        · rw [eqb, esb, blockEntry_mid (lu'.trans cb1.lengths.1.symm) (by rw [legIndices_length hm, cp.lengths.1]) (cb1.lengths.1.trans cb1.lengths.2.symm)
            (cp.lengths.1.trans cp.lengths.2.symm), if_neg, mul_zero, mul_zero, mul_zero]
          rintro ⟨h, -⟩
          rw [map_append_iff (lu'.trans cb1.lengths.1.symm)] at h
          exact e h.1
      · have := pl la[x.1].2.1 (List.mem_map.2 ⟨_, List.getElem_mem hi', rfl⟩)
        rw [esa] at this
        rw [List.append_assoc, List.take_left' ca1.lengths.2, ← List.append_assoc, List.drop_left' (by simp [ca1.lengths.2, cp.lengths.2])] at this
        exact this
      · have := pr lb[x.2].2.1 (List.mem_map.2 ⟨_, List.getElem_mem hj', rfl⟩)
        rw [esb] at this
        rw [List.append_assoc, List.take_left' cb1.lengths.2, ← List.append_assoc, List.drop_left' (by simp [cb1.lengths.2, cp.lengths.2])] at this
        exact this
  have hmem : ∀ e ∈ L, ∃ x ∈ pairs (pack la).qs (pack lb).qs (List.range' a1.length s.length) (List.range' b1.length s.length), _ := fun e he => forall₂_mem hL he
  obtain ⟨l', c', d', q', s', v'⟩ := run_pack (pack la).data (pack lb).data (interleave (pack lc).qs.length L) hc fun e he => by
    obtain ⟨x, hx, hr⟩ := hmem e (mem_interleave he)
    obtain ⟨-, -, hk, h1, h2, -⟩ := key x hx e hr
    exact ⟨hk, h1, h2⟩
  have hD : ({ pack lc with data := run ((interleave (pack lc).qs.length L).map Prod.snd) (pack la).data (pack lb).data (pack lc).data } : Flat Q K) = pack l' := by
    rw [d']
    simp only [pack, q', s']
  rw [hD]
  refine ⟨pack_wellFormed c', fun u v u' w' lu lv lu' lv' => ?_⟩
  rw [entry_toSparse_pack id c', entry_toSparse_pack id hc, v']
  congr 1
  rw [sum_interleave fun e he => by
    obtain ⟨x, hx, hr⟩ := hmem e he
    obtain ⟨-, -, hk, -⟩ := key x hx e hr
    simpa [pack] using hk]
  rw [sum_forall₂ hL (f := fun x => ((legIndices s).map fun m => paritySign K (ferm && fermParity isF (u'.map Prod.fst)) *
      (blockEntry ((la.getD x.1 ([], [], [])).1, Arr.ofList (la.getD x.1 ([], [], [])).2.1 (la.getD x.1 ([], [], [])).2.2) (u ++ m ++ v) *
        blockEntry ((lb.getD x.2 ([], [], [])).1, Arr.ofList (lb.getD x.2 ([], [], [])).2.1 (lb.getD x.2 ([], [], [])).2.2) (u' ++ m ++ w'))).sum) (by
    intro x hx e hr
    obtain ⟨hi, hj, hk, -, -, h⟩ := key x hx e hr
    have h := h u v u' w' lu lv lu' lv'
    simp only [List.getD_eq_getElem?_getD, List.getElem?_eq_getElem hi, List.getElem?_eq_getElem hj, Option.getD_some]
    rw [← h]
    simp [List.getElem?_eq_getElem hk])]
  have := sum_pairs (la := la) (lb := lb) (List.range' a1.length s.length) (List.range' b1.length s.length)
    (fun x => ((legIndices s).map fun m => paritySign K (ferm && fermParity isF (u'.map Prod.fst)) *
      (blockEntry ((la.getD x.1 ([], [], [])).1, Arr.ofList (la.getD x.1 ([], [], [])).2.1 (la.getD x.1 ([], [], [])).2.2) (u ++ m ++ v) *
        blockEntry ((lb.getD x.2 ([], [], [])).1, Arr.ofList (lb.getD x.2 ([], [], [])).2.1 (lb.getD x.2 ([], [], [])).2.2) (u' ++ m ++ w'))).sum)
    (fun a b => ((legIndices s).map fun m => paritySign K (ferm && fermParity isF (u'.map Prod.fst)) *
      (blockEntry (a.1, Arr.ofList a.2.1 a.2.2) (u ++ m ++ v) * blockEntry (b.1, Arr.ofList b.2.1 b.2.2) (u' ++ m ++ w'))).sum) (by
      intro i j hi hj _
      simp only [List.getD_eq_getElem?_getD, List.getElem?_eq_getElem hi, List.getElem?_eq_getElem hj, Option.getD_some]) (by
      intro a ha' b hb' hne
      refine sum_map_zero' _ _ fun m hm => ?_
      obtain ⟨qa1, qp, qa2, sa1, sp, sa2, eqa, esa, ca1, cp, ca2⟩ := combination_split3 (gA _ ha')
      obtain ⟨qb1, qp', qb2, sb1, sp', sb2, eqb, esb, cb1, cp', cb2⟩ := combination_split3 (gB _ hb')
      rw [eqa, eqb, pick_mid a1 s a2 ca1.lengths.1 cp.lengths.1, pick_mid b1 s b2 cb1.lengths.1 cp'.lengths.1] at hne
      rw [eqa, eqb, esa, esb, blockEntry_mid (lu.trans ca1.lengths.1.symm) (by rw [legIndices_length hm, cp.lengths.1]) (ca1.lengths.1.trans ca1.lengths.2.symm)
        (cp.lengths.1.trans cp.lengths.2.symm), blockEntry_mid (lu'.trans cb1.lengths.1.symm) (by rw [legIndices_length hm, cp'.lengths.1])
        (cb1.lengths.1.trans cb1.lengths.2.symm) (cp'.lengths.1.trans cp'.lengths.2.symm)]
      by_cases e1 : qp = m.map Prod.fst
      · rw [if_neg (c := qp' = m.map Prod.fst ∧ _) fun h => hne (h.1.trans e1.symm)]
        simp
      · rw [if_neg (c := qp = m.map Prod.fst ∧ _) fun h => e1 h.1]
        simp)
  rw [show (pack la).qs = la.map fun e => e.1 from rfl, show (pack lb).qs = lb.map fun e => e.1 from rfl, this]
  simp only [entry_toSparse_pack id ha, entry_toSparse_pack id hb, entryL, List.map_id]
  have e1 : ∀ m, paritySign K (ferm && fermParity isF (u'.map Prod.fst)) * ((la.map fun e => blockEntry (e.1, Arr.ofList e.2.1 e.2.2) (u ++ m ++ v)).sum *
      (lb.map fun e => blockEntry (e.1, Arr.ofList e.2.1 e.2.2) (u' ++ m ++ w')).sum) = (la.map fun a => (lb.map fun b =>
        paritySign K (ferm && fermParity isF (u'.map Prod.fst)) *
      (blockEntry (a.1, Arr.ofList a.2.1 a.2.2) (u ++ m ++ v) * blockEntry (b.1, Arr.ofList b.2.1 b.2.2) (u' ++ m ++ w'))).sum).sum := by
    intro m
    rw [← sum_map_mul_right', ← sum_map_mul_left']
    refine sum_map_congr' _ _ _ fun a _ => ?_
    rw [← sum_map_mul_left', ← sum_map_mul_left']
  simp only [e1]
  rw [sum_comm' (legIndices s)]
  exact sum_map_congr' _ _ _ fun a _ => sum_comm' _ _ _

end

end Functor
end Verif
