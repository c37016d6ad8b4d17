import Verif.Model.Symbolic
import Verif.Proof.Sparse
import Verif.Proof.Dict
import Mathlib.Data.List.Induction
import Mathlib.Data.List.Nodup
import Mathlib.Data.List.Count
import Mathlib.Tactic.Ring
import Mathlib.Data.ZMod.Basic

/-!
Property C45: symbolic operator slots are a bijection, and every operator is stored at its own place.
-/

set_option linter.unusedSectionVars false

namespace Verif
namespace Symbolic

section
variable {L : Type} [DecidableEq L]

/-! ### Specification -/

/-- The slot of the operator number `i`: its label, and how many earlier operators have the same label. -/
def Slot (qs : List L) (i : Nat) (s : L × Nat) : Prop := qs[i]? = some s.1 ∧ s.2 = (qs.take i).count s.1

/-! ### The table -/

/-- Positions of the label `q`. -/
def positions (q : L) (qs : List L) : List Nat := (qs.zipIdx.filter fun p => p.1 = q).map Prod.snd

theorem positions_append (q : L) (a b : List L) :
    positions q (a ++ b) = positions q a ++ (positions q b).map (· + a.length) := by
  unfold positions
  rw [List.zipIdx_append, List.filter_append, List.map_append]
  congr 1
  simp only [Nat.zero_add]
  rw [List.zipIdx_eq_map_add, List.filter_map, List.map_map, List.map_map]
  congr 1
  funext x
  exact Nat.add_comm _ _

theorem positions_length (q : L) (qs : List L) : (positions q qs).length = qs.count q := by
  induction qs using List.reverseRecOn with
  | nil => rfl
  | append_singleton t a ih =>
    rw [positions_append, List.length_append, ih, List.count_append, List.length_map]
    congr 1
    by_cases h : a = q <;> simp [positions, h]

theorem mem_positions (q : L) (qs : List L) (i : Nat) : i ∈ positions q qs ↔ qs[i]? = some q := by
  unfold positions
  simp only [List.mem_map, List.mem_filter, decide_eq_true_eq, Prod.exists]
  constructor
  · rintro ⟨a, b, ⟨h, rfl⟩, rfl⟩
    exact List.mem_zipIdx_iff_getElem?.1 h
  · intro h
    exact ⟨q, i, ⟨List.mem_zipIdx_iff_getElem?.2 h, rfl⟩, rfl⟩

theorem positions_nodup (q : L) (qs : List L) : (positions q qs).Nodup := by
  unfold positions
  have h : (qs.zipIdx.map Prod.snd).Nodup := by
    rw [List.zipIdx_map_snd]
    exact List.nodup_range'
  exact h.sublist ((List.filter_sublist).map _)

theorem idxOf_positions (q : L) (qs : List L) (i : Nat) (h : qs[i]? = some q) :
    (positions q qs).idxOf i = (qs.take i).count q := by
  obtain ⟨hi, he⟩ := List.getElem?_eq_some_iff.1 h
  have e : qs = qs.take i ++ q :: qs.drop (i + 1) := by
    rw [← he, List.getElem_cons_drop, List.take_append_drop]
  have hl : (qs.take i).length = i := by simp; omega
  have hn : i ∉ positions q (qs.take i) := by
    rw [mem_positions, List.getElem?_eq_none (by omega)]
    simp
  conv_lhs => rw [e]
  rw [positions_append, List.idxOf_append_of_notMem hn, positions_length]
  have : positions q (q :: qs.drop (i + 1)) = 0 :: (positions q (qs.drop (i + 1))).map (· + 1) := by
    have := positions_append q [q] (qs.drop (i + 1))
    simpa [positions] using this
  rw [this]
  simp [hl]

theorem collect_append (qs : List L) (q : L) :
    collect (qs ++ [q]) = (Dict.set (collect qs).1 q ((Dict.get? (collect qs).1 q).getD [] ++ [qs.length]),
      Counter.incr (collect qs).2 q 1) := by
  unfold collect
  rw [List.zipIdx_append, List.foldl_append]
  simp

theorem collect_spec (qs : List L) :
    Dict.WF (collect qs).1 ∧
    (∀ q, Dict.get? (collect qs).1 q = if q ∈ qs then some (positions q qs) else none) ∧
    (∀ q, Counter.count (collect qs).2 q = qs.count q) ∧
    Dict.WF (collect qs).2 ∧ ∀ q, q ∈ (collect qs).2.map Prod.fst ↔ q ∈ qs := by
  induction qs using List.reverseRecOn with
  | nil => exact ⟨Dict.WF.nil, fun q => by simp [collect], fun q => by simp [collect], Dict.WF.nil, fun q => by simp [collect]⟩
  | append_singleton t a ih =>
    obtain ⟨h1, h2, h3, h4, h5⟩ := ih
    rw [collect_append]
    refine ⟨h1.set _ _, fun q => ?_, fun q => ?_, h4.set _ _, fun q => ?_⟩
    · rw [Dict.get?_set, positions_append]
      by_cases hq : a = q
      · subst hq
        rw [if_pos rfl, h2, if_pos (show a ∈ t ++ [a] by simp)]
        by_cases ht : a ∈ t
        · simp [ht, positions]
        · have : positions a t = [] := by
            rw [← List.length_eq_zero_iff, positions_length]
            exact List.count_eq_zero.2 ht
          rw [this, if_neg ht]
          simp [positions]
      · rw [if_neg hq, h2]
        have : q ∈ t ++ [a] ↔ q ∈ t := by simp [Ne.symm hq]
        simp only [this]
        simp [positions, hq]
    · rw [Counter.count_incr, h3, List.count_append]
      by_cases hq : a = q <;> simp [hq]
    · unfold Counter.incr
      rw [Dict.mem_map_fst_set, h5]
      simp [or_comm]

theorem assign_length (q : L) (v : List Nat) (out : List (Option (L × Nat))) : (assign q v out).length = out.length := by
  unfold assign
  generalize v.zipIdx = w
  induction w generalizing out with
  | nil => rfl
  | cons a t ih => rw [List.foldl_cons, ih, List.length_set]

theorem assign_get (q : L) (v : List Nat) (hv : v.Nodup) (out : List (Option (L × Nat))) (i : Nat) (hi : i < out.length) :
    (assign q v out)[i]? = if i ∈ v then some (some (q, v.idxOf i)) else out[i]? := by
  induction v using List.reverseRecOn with
  | nil => simp [assign]
  | append_singleton t a ih =>
    have ht := (List.nodup_append.1 hv).1
    have hat : a ∉ t := fun h => (List.nodup_append.1 hv).2.2 a h a (by simp) rfl
    have e : assign q (t ++ [a]) out = (assign q t out).set a (some (q, t.length)) := by
      unfold assign
      rw [List.zipIdx_append, List.foldl_append]
      simp
    rw [e, List.getElem?_set, assign_length]
    by_cases ha : a = i
    · subst ha
      rw [if_pos rfl, if_pos hi, if_pos (by simp), List.idxOf_append_of_notMem hat]
      simp
    · rw [if_neg ha, ih ht]
      by_cases hit : i ∈ t
      · rw [if_pos hit, if_pos (by simp [hit]), List.idxOf_append_of_mem hit]
      · rw [if_neg hit, if_neg (by simp [hit, Ne.symm ha])]

theorem fold_assign (f : L → List Nat) (hf : ∀ q, (f q).Nodup) (c : Dict L (List Nat)) (hc : Dict.WF c)
    (hcf : ∀ p ∈ c, p.2 = f p.1) (out : List (Option (L × Nat))) (i : Nat) (hi : i < out.length) (q : L)
    (hq : ∀ q', i ∈ f q' ↔ q' = q) :
    (c.foldl (fun out p => assign p.1 p.2 out) out).length = out.length ∧
    (c.foldl (fun out p => assign p.1 p.2 out) out)[i]? =
      if q ∈ c.map Prod.fst then some (some (q, (f q).idxOf i)) else out[i]? := by
  induction c generalizing out with
  | nil => simp
  | cons p t ih =>
    obtain ⟨k, v⟩ := p
    have hv : v = f k := hcf _ (List.mem_cons_self ..)
    unfold Dict.WF at hc
    rw [List.map_cons, List.nodup_cons] at hc
    have := ih hc.2 (fun p hp => hcf p (List.mem_cons_of_mem _ hp)) (assign k v out) (by rw [assign_length]; exact hi)
    rw [List.foldl_cons, this.1, this.2, assign_length]
    refine ⟨rfl, ?_⟩
    rw [hv, assign_get _ _ (hf k) _ _ hi]
    by_cases hk : k = q
    · subst hk
      rw [if_neg hc.1, if_pos ((hq k).2 rfl), if_pos (by simp)]
    · rw [if_neg (fun h => hk ((hq k).1 h))]
      by_cases ht : q ∈ t.map Prod.fst
      · rw [if_pos ht, if_pos (by rw [List.map_cons]; exact List.mem_cons_of_mem _ ht)]
      · rw [if_neg ht, if_neg (by rw [List.map_cons, List.mem_cons]; rintro (h | h); exacts [hk h.symm, ht h])]

theorem table (qs : List L) (i : Nat) (q : L) (h : qs[i]? = some q) :
    (fromOpNames qs).1[i]? = some (some (q, (qs.take i).count q)) := by
  obtain ⟨hi, he⟩ := List.getElem?_eq_some_iff.1 h
  obtain ⟨h1, h2, h3, h4, h5⟩ := collect_spec qs
  have hmem : q ∈ qs := by rw [← he]; exact List.getElem_mem hi
  have hk : q ∈ (collect qs).1.map Prod.fst := by
    rw [Dict.mem_keys_iff]
    exact ⟨_, by rw [h2, if_pos hmem]⟩
  have := (fold_assign (fun q => positions q qs) (fun q => positions_nodup q qs) (collect qs).1 h1
    (fun p hp => by
      have := Dict.get?_of_mem h1 (k := p.1) (v := p.2) hp
      rw [h2] at this
      split_ifs at this with hm
      exact (Option.some.inj this).symm) (qs.map fun _ => none) i (by simpa using hi) q
    (fun q' => by
      rw [mem_positions, h]
      simp [eq_comm])).2
  rw [if_pos hk] at this
  unfold fromOpNames
  simp only [this]
  rw [idxOf_positions q qs i h]

theorem table_length (qs : List L) : (fromOpNames qs).1.length = qs.length := by
  unfold fromOpNames
  dsimp only
  generalize (collect qs).1 = c
  have : ∀ (out : List (Option (L × Nat))), (c.foldl (fun out p => assign p.1 p.2 out) out).length = out.length := by
    induction c with
    | nil => intro; rfl
    | cons p t ih => intro out; rw [List.foldl_cons, ih, assign_length]
  rw [this, List.length_map]

/-! ### Properties of the table -/

/-- **C45**: the table has one entry for each operator, namely its slot. -/
theorem C45_table (qs : List L) :
    (fromOpNames qs).1.length = qs.length ∧
    ∀ i < qs.length, ∃ s, (fromOpNames qs).1[i]? = some (some s) ∧ Slot qs i s := by
  refine ⟨table_length qs, fun i hi => ?_⟩
  have h : qs[i]? = some qs[i] := List.getElem?_eq_getElem hi
  exact ⟨_, table qs i _ h, h, rfl⟩

/-- **C45**: the bond has one sector for each label that occurs, with one state for each operator of that label. -/
theorem C45_sectors (qs : List L) :
    Dict.WF (fromOpNames qs).2 ∧ (∀ q, q ∈ (fromOpNames qs).2.map Prod.fst ↔ q ∈ qs) ∧
    ∀ q, Counter.count (fromOpNames qs).2 q = qs.count q := by
  obtain ⟨_, _, h3, h4, h5⟩ := collect_spec qs
  exact ⟨h4, h5, h3⟩

/-- **C45**: different operators have different slots. -/
theorem C45_injective (qs : List L) (i j : Nat) (s : L × Nat) (hi : (fromOpNames qs).1[i]? = some (some s))
    (hj : (fromOpNames qs).1[j]? = some (some s)) : i = j := by
  have hil : i < qs.length := by
    rw [← table_length qs]; exact (List.getElem?_eq_some_iff.1 hi).1
  have hjl : j < qs.length := by
    rw [← table_length qs]; exact (List.getElem?_eq_some_iff.1 hj).1
  have ei := table qs i _ (List.getElem?_eq_getElem hil)
  have ej := table qs j _ (List.getElem?_eq_getElem hjl)
  rw [hi] at ei; rw [hj] at ej
  have ei := Option.some.inj (Option.some.inj ei)
  have ej := Option.some.inj (Option.some.inj ej)
  have hq : qs[i] = qs[j] := by
    have := ei.symm.trans ej
    exact (Prod.mk.inj this).1
  have h1 := idxOf_positions qs[i] qs i (List.getElem?_eq_getElem hil)
  have h2 := idxOf_positions qs[i] qs j (by rw [hq]; exact List.getElem?_eq_getElem hjl)
  have h3 : (qs.take i).count qs[i] = (qs.take j).count qs[i] := by
    have := (Prod.mk.inj (ei.symm.trans ej)).2
    rw [this, hq]
  have hm : i ∈ positions qs[i] qs := (mem_positions ..).2 (List.getElem?_eq_getElem hil)
  rw [← h1, ← h2] at h3
  exact (List.idxOf_inj hm).1 h3

/-- **C45**: every slot of the bond (a basis state of the bond with these sectors) belongs to an operator. -/
theorem C45_surjective (qs : List L) (s : L × Nat) :
    s ∈ legBasis (fromOpNames qs).2 ↔ ∃ i : Nat, (fromOpNames qs).1[i]? = some (some s) := by
  obtain ⟨hw, hk, hc⟩ := C45_sectors qs
  unfold legBasis
  simp only [List.mem_flatMap, List.mem_map, List.mem_range]
  constructor
  · rintro ⟨⟨q, n⟩, hp, k, hk', rfl⟩
    have hn : n = qs.count q := by rw [← hc q, Counter.count_of_mem hw hp]
    simp only at hk' ⊢
    have hlt : k < (positions q qs).length := by rw [positions_length, ← hn]; exact hk'
    have hi := (mem_positions q qs _).1 (List.getElem_mem hlt)
    refine ⟨(positions q qs)[k], ?_⟩
    rw [table qs _ q hi, ← idxOf_positions q qs _ hi, List.Nodup.idxOf_getElem (positions_nodup q qs)]
  · rintro ⟨i, hi⟩
    have hil : i < qs.length := by
      rw [← table_length qs]; exact (List.getElem?_eq_some_iff.1 hi).1
    have e := table qs i _ (List.getElem?_eq_getElem hil)
    rw [hi] at e
    have e := Option.some.inj (Option.some.inj e)
    subst e
    have hmem : qs[i] ∈ qs := List.getElem_mem hil
    obtain ⟨n, hn⟩ := Dict.mem_keys_iff.1 ((hk qs[i]).2 hmem)
    refine ⟨(qs[i], n), Dict.mem_of_get? hn, (qs.take i).count qs[i], ?_, rfl⟩
    have : n = qs.count qs[i] := by rw [← hc]; simp [Counter.count, hn]
    simp only [this]
    have h1 : 0 < (qs.drop i).count qs[i] := by
      rw [List.count_pos_iff, List.drop_eq_getElem_cons hil]
      exact List.mem_cons_self ..
    have h2 : ∀ a, qs.count a = (qs.take i).count a + (qs.drop i).count a := by
      intro a
      rw [← List.count_append, List.take_append_drop]
    have := h2 qs[i]
    omega

end

/-! ### Conversion to blocks -/

section
variable {Q K : Type} [DecidableEq Q] [AddCommGroup Q] [CommRing K]

theorem get?_map_inj {α β : Type} [DecidableEq α] (f : α → α) (hf : Function.Injective f) (d : Dict α β) (k : α) :
    Dict.get? (d.map fun p => (f p.1, p.2)) (f k) = Dict.get? d k := by
  induction d with
  | nil => rfl
  | cons p t ih =>
    rw [List.map_cons, Dict.get?_cons, Dict.get?_cons, ih]
    by_cases h : p.1 = k
    · rw [if_pos h, if_pos (by rw [h])]
    · rw [if_neg h, if_neg (fun e => h (hf e))]

/-- The first leg of the numerical tensor: labels are subtracted from the total charge. -/
def leftLeg (dq : Q) (lq : List Q) : BondInfo Q := (fromOpNames lq).2.map fun p => (dq - p.1, p.2)

/-- The last leg of the numerical tensor. -/
def rightLeg (rq : List Q) : BondInfo Q := (fromOpNames rq).2

theorem isCombination_append {as bs : List (BondInfo Q)} {q1 q2 : List Q} {s1 s2 : List Nat} (h1 : IsCombination as q1 s1)
    (h2 : IsCombination bs q2 s2) : IsCombination (as ++ bs) (q1 ++ q2) (s1 ++ s2) := by
  induction h1 with
  | nil => exact h2
  | cons h _ ih => exact .cons h ih

/-- The blocks added for one cell. -/
def cellBlocks (dq : Q) (lq rq : List Q) (part : OpT Q K → SpT Q K) (e : Cell Q K) : List (List Q × Arr K) :=
  match lq[e.row]?, rq[e.col]? with
  | some l, some r =>
    (part e.op).map fun b => ((dq - l) :: b.1 ++ [r],
      placed (lq.count l) (rq.count r) ((lq.take e.row).count l) ((rq.take e.col).count r) e.factor b.2)
  | _, _ => []

theorem addBlock_eq (dq : Q) (c : K) (l r : Q × Nat) (nl nr : Nat) (m : SpT Q K) (b : List Q × Arr K) :
    addBlock dq c l r nl nr m b = SpT.accumulate m ((dq - l.1) :: b.1 ++ [r.1]) (placed nl nr l.2 r.2 c b.2) := by
  unfold addBlock SpT.accumulate
  dsimp only
  cases h : Dict.get? m ((dq - l.1) :: b.1 ++ [r.1]) with
  | some o => rfl
  | none =>
    simp only [Option.getD_none]
    congr 1
    simp [Arr.add, Arr.zeros, placed]

theorem putCell_eq (dq : Q) (lq rq : List Q) (m : OpT Q K) (e : Cell Q K) (hr : e.row < lq.length) (hc : e.col < rq.length) :
    putCell dq (fromOpNames lq) (fromOpNames rq) m e =
      some ⟨(cellBlocks dq lq rq OpT.odd e).foldl (fun m b => SpT.accumulate m b.1 b.2) m.odd,
        (cellBlocks dq lq rq OpT.even e).foldl (fun m b => SpT.accumulate m b.1 b.2) m.even⟩ := by
  unfold putCell cellBlocks
  have h1 : lq[e.row]? = some lq[e.row] := List.getElem?_eq_getElem hr
  have h2 : rq[e.col]? = some rq[e.col] := List.getElem?_eq_getElem hc
  rw [table lq _ _ h1, table rq _ _ h2, h1, h2]
  simp only [Option.join_some, (C45_sectors lq).2.2, (C45_sectors rq).2.2, List.foldl_map]
  congr 2 <;> (congr 1; funext m b; exact addBlock_eq ..)

theorem toSparse_eq (dq : Q) (lq rq : List Q) (cells : List (Cell Q K))
    (hcells : ∀ e ∈ cells, e.row < lq.length ∧ e.col < rq.length) (m : OpT Q K) :
    cells.foldlM (putCell dq (fromOpNames lq) (fromOpNames rq)) m =
      some ⟨(cells.flatMap (cellBlocks dq lq rq OpT.odd)).foldl (fun m b => SpT.accumulate m b.1 b.2) m.odd,
        (cells.flatMap (cellBlocks dq lq rq OpT.even)).foldl (fun m b => SpT.accumulate m b.1 b.2) m.even⟩ := by
  induction cells generalizing m with
  | nil => rfl
  | cons e t ih =>
    have he := hcells e (List.mem_cons_self ..)
    rw [List.foldlM_cons, putCell_eq dq lq rq m e he.1 he.2]
    simp only [Option.bind_eq_bind, Option.bind_some]
    rw [ih (fun e h => hcells e (List.mem_cons_of_mem _ h))]
    simp only [List.flatMap_cons, List.foldl_append]

theorem get?_leftLeg (dq : Q) (lq : List Q) (l : Q) (h : l ∈ lq) : Dict.get? (leftLeg dq lq) (dq - l) = some (lq.count l) := by
  unfold leftLeg
  rw [get?_map_inj (fun q => dq - q) (sub_right_injective)]
  obtain ⟨n, hn⟩ := Dict.mem_keys_iff.1 (((C45_sectors lq).2.1 l).2 h)
  rw [hn, ← (C45_sectors lq).2.2 l]
  simp [Counter.count, hn]

theorem get?_rightLeg (rq : List Q) (r : Q) (h : r ∈ rq) : Dict.get? (rightLeg rq) r = some (rq.count r) := by
  obtain ⟨n, hn⟩ := Dict.mem_keys_iff.1 (((C45_sectors rq).2.1 r).2 h)
  unfold rightLeg
  rw [hn, ← (C45_sectors rq).2.2 r]
  simp [Counter.count, hn]

theorem cellBlocks_conforms (dq : Q) (lq rq : List Q) (phys : List (BondInfo Q)) (part : OpT Q K → SpT Q K) (e : Cell Q K)
    (he : Conforms phys (part e.op)) :
    Conforms (leftLeg dq lq :: phys ++ [rightLeg rq]) (cellBlocks dq lq rq part e) := by
  intro b hb
  unfold cellBlocks at hb
  split at hb
  · rename_i l r hl hr
    obtain ⟨b', hb', rfl⟩ := List.mem_map.1 hb
    refine .cons (get?_leftLeg dq lq l ?_) (isCombination_append (he b' hb') (.cons (get?_rightLeg rq r ?_) .nil))
    · exact List.mem_of_getElem? hl
    · exact List.mem_of_getElem? hr
  · simp at hb

theorem inBox_snoc (s i : List Nat) (n k : Nat) : inBox (s ++ [n]) (i ++ [k]) = (inBox s i && decide (k < n)) := by
  induction s generalizing i with
  | nil => cases i with
    | nil => simp [inBox]
    | cons a t => cases t <;> simp [inBox]
  | cons a t ih => cases i with
    | nil => cases t <;> simp [inBox]
    | cons b u => simp [inBox, ih, Bool.and_assoc]

theorem blockEntry_placed (dq : Q) (lq rq : List Q) (i j : Nat) (li rj l r : Q) (hi : lq[i]? = some li) (hj : rq[j]? = some rj)
    (row col : Nat) (hl : lq[row]? = some l) (hr : rq[col]? = some r) (c : K) (b : List Q × Arr K) (y : List (Q × Nat)) :
    blockEntry ((dq - l) :: b.1 ++ [r],
      placed (lq.count l) (rq.count r) ((lq.take row).count l) ((rq.take col).count r) c b.2)
      ((dq - li, (lq.take i).count li) :: y ++ [(rj, (rq.take j).count rj)]) =
    if row = i ∧ col = j then c * blockEntry b y else 0 := by
  have slotEq : ∀ (qs : List Q) (i k : Nat) (a b : Q), qs[i]? = some a → qs[k]? = some b → a = b →
      (qs.take i).count a = (qs.take k).count b → i = k := by
    intro qs i k a b ha hb hab hcount
    apply C45_injective qs i k (a, (qs.take i).count a) (table qs i a ha)
    rw [hcount, hab]
    exact table qs k b hb
  have lt : ∀ (qs : List Q) (i : Nat) (a : Q), qs[i]? = some a → (qs.take i).count a < qs.count a := by
    intro qs i a ha
    obtain ⟨hi, he⟩ := List.getElem?_eq_some_iff.1 ha
    conv_rhs => rw [← List.take_append_drop i qs, List.count_append]
    have : 0 < (qs.drop i).count a := by
      rw [List.count_pos_iff, List.drop_eq_getElem_cons hi, he]
      exact List.mem_cons_self ..
    omega
  unfold blockEntry
  have hlab : ((dq - l) :: b.1 ++ [r] = List.map Prod.fst ((dq - li, (lq.take i).count li) :: y ++ [(rj, (rq.take j).count rj)])) ↔
      (l = li ∧ b.1 = y.map Prod.fst ∧ r = rj) := by
    simp only [List.map_append, List.map_cons, List.map_nil, List.cons_append, List.cons.injEq, sub_right_inj]
    constructor
    · rintro ⟨h1, h2⟩
      have := List.append_inj' h2 rfl
      exact ⟨h1, this.1, by simpa using this.2⟩
    · rintro ⟨h1, h2, h3⟩
      exact ⟨h1, by rw [h2, h3]⟩
  have hbox : inBox (placed (lq.count l) (rq.count r) ((lq.take row).count l) ((rq.take col).count r) c b.2).shape
      (List.map Prod.snd ((dq - li, (lq.take i).count li) :: y ++ [(rj, (rq.take j).count rj)])) =
      (decide ((lq.take i).count li < lq.count l) && (inBox b.2.shape (y.map Prod.snd) && decide ((rq.take j).count rj < rq.count r))) := by
    simp [placed, inBox, inBox_snoc]
  have hget : (placed (lq.count l) (rq.count r) ((lq.take row).count l) ((rq.take col).count r) c b.2).get
      (List.map Prod.snd ((dq - li, (lq.take i).count li) :: y ++ [(rj, (rq.take j).count rj)])) =
      if (lq.take i).count li = (lq.take row).count l ∧ (rq.take j).count rj = (rq.take col).count r
        then c * b.2.get (y.map Prod.snd) else 0 := by
    have e1 : (List.map Prod.snd ((dq - li, (lq.take i).count li) :: y ++ [(rj, (rq.take j).count rj)])) =
      (lq.take i).count li :: (y.map Prod.snd ++ [(rq.take j).count rj]) := by simp
    have e2 : ∀ (a b : Nat) (z : List Nat), (a :: (z ++ [b])).getLast? = some b := by
      intro a b z
      rw [← List.cons_append, List.getLast?_concat]
    rw [e1]
    unfold placed
    simp only [e2, List.head?_cons, List.tail_cons, List.dropLast_concat, Option.some.injEq]
  dsimp only at hlab ⊢
  rw [hget, hbox]
  by_cases hrc : row = i ∧ col = j
  · obtain ⟨rfl, rfl⟩ := hrc
    rw [hi] at hl; rw [hj] at hr
    obtain rfl := Option.some.inj hl
    obtain rfl := Option.some.inj hr
    rw [if_pos (show row = row ∧ col = col from ⟨rfl, rfl⟩)]
    have h1 := lt lq row li hi
    have h2 := lt rq col rj hj
    by_cases hb : b.1 = y.map Prod.fst ∧ inBox b.2.shape (y.map Prod.snd) = true
    · rw [if_pos ⟨hlab.2 ⟨rfl, hb.1, rfl⟩, by simp [h1, h2, hb.2]⟩, if_pos ⟨rfl, rfl⟩, if_pos hb]
    · rw [if_neg hb, mul_zero, if_neg]
      rintro ⟨ha, hb'⟩
      apply hb
      simp only [Bool.and_eq_true] at hb'
      exact ⟨(hlab.1 ha).2.1, hb'.2.1⟩
  · rw [if_neg hrc]
    refine ite_eq_right_iff.2 fun hb => ?_
    rw [if_neg]
    rintro ⟨h1, h2⟩
    obtain ⟨e1, _, e2⟩ := hlab.1 hb.1
    exact hrc ⟨(slotEq lq i row li l hi hl e1.symm h1).symm, (slotEq rq j col rj r hj hr e2.symm h2).symm⟩

theorem entry_cellBlocks (dq : Q) (lq rq : List Q) (part : OpT Q K → SpT Q K) (e : Cell Q K) (hr : e.row < lq.length)
    (hc : e.col < rq.length) (i j : Nat) (li rj : Q) (hi : lq[i]? = some li) (hj : rq[j]? = some rj) (y : List (Q × Nat)) :
    entry (cellBlocks dq lq rq part e) ((dq - li, (lq.take i).count li) :: y ++ [(rj, (rq.take j).count rj)]) =
      if e.row = i ∧ e.col = j then e.factor * entry (part e.op) y else 0 := by
  have h1 : lq[e.row]? = some lq[e.row] := List.getElem?_eq_getElem hr
  have h2 : rq[e.col]? = some rq[e.col] := List.getElem?_eq_getElem hc
  unfold cellBlocks entry
  rw [h1, h2]
  simp only [List.map_map]
  rw [sum_map_congr' (g := fun b => if e.row = i ∧ e.col = j then e.factor * blockEntry b y else 0)]
  · split_ifs
    · rw [sum_map_mul_left']
    · simp
  · intro b _
    exact blockEntry_placed dq lq rq i j li rj _ _ hi hj _ _ h1 h2 e.factor b y

theorem entry_cells (dq : Q) (lq rq : List Q) (part : OpT Q K → SpT Q K) (cells : List (Cell Q K))
    (hcells : ∀ e ∈ cells, e.row < lq.length ∧ e.col < rq.length) (i j : Nat) (li rj : Q) (hi : lq[i]? = some li)
    (hj : rq[j]? = some rj) (y : List (Q × Nat)) :
    entry (cells.flatMap (cellBlocks dq lq rq part)) ((dq - li, (lq.take i).count li) :: y ++ [(rj, (rq.take j).count rj)]) =
      ((cells.filter fun e => e.row = i ∧ e.col = j).map fun e => e.factor * entry (part e.op) y).sum := by
  induction cells with
  | nil => rfl
  | cons e t ih =>
    have he := hcells e (List.mem_cons_self ..)
    rw [List.flatMap_cons, entry_append, ih (fun e h => hcells e (List.mem_cons_of_mem _ h)),
      entry_cellBlocks dq lq rq part e he.1 he.2 i j li rj hi hj, List.filter_cons]
    by_cases h : e.row = i ∧ e.col = j
    · simp [h]
    · simp [h]

/-- **C45**: converting a symbolic matrix of operators to a block tensor stores every operator at its own place.  The numerical
tensor has the slots of the row operators on its first leg (labels subtracted from the total charge `dq`) and the slots of the
column operators on its last leg.  Its part at the slots of row `i` and column `j` is the sum of the elements of the symbolic matrix
at `(i, j)`, each with its factor. -/
theorem C45_to_sparse (dq : Q) (lq rq : List Q) (phys : List (BondInfo Q)) (cells : List (Cell Q K))
    (hcells : ∀ e ∈ cells, e.row < lq.length ∧ e.col < rq.length)
    (hops : ∀ e ∈ cells, Conforms phys e.op.odd ∧ Conforms phys e.op.even) :
    ∃ T, toSparse dq lq rq cells = some T ∧
      Conforms (leftLeg dq lq :: phys ++ [rightLeg rq]) T.odd ∧ Conforms (leftLeg dq lq :: phys ++ [rightLeg rq]) T.even ∧
      UniqueLabels T.odd ∧ UniqueLabels T.even ∧
      ∀ (i j : Nat) (l r : Q × Nat), Slot lq i l → Slot rq j r → ∀ y,
        entry T.odd ((dq - l.1, l.2) :: y ++ [r]) =
          ((cells.filter fun e => e.row = i ∧ e.col = j).map fun e => e.factor * entry e.op.odd y).sum ∧
        entry T.even ((dq - l.1, l.2) :: y ++ [r]) =
          ((cells.filter fun e => e.row = i ∧ e.col = j).map fun e => e.factor * entry e.op.even y).sum := by
  refine ⟨_, toSparse_eq dq lq rq cells hcells ⟨[], []⟩, ?_⟩
  have ho : Conforms (leftLeg dq lq :: phys ++ [rightLeg rq]) (cells.flatMap (cellBlocks dq lq rq OpT.odd)) := by
    intro b hb
    obtain ⟨e, he, hb⟩ := List.mem_flatMap.1 hb
    exact cellBlocks_conforms dq lq rq phys OpT.odd e (hops e he).1 b hb
  have hv : Conforms (leftLeg dq lq :: phys ++ [rightLeg rq]) (cells.flatMap (cellBlocks dq lq rq OpT.even)) := by
    intro b hb
    obtain ⟨e, he, hb⟩ := List.mem_flatMap.1 hb
    exact cellBlocks_conforms dq lq rq phys OpT.even e (hops e he).2 b hb
  have f1 := foldl_accumulate _ ([] : SpT Q K) (by intro b hb; simp at hb) ho (by simp [UniqueLabels])
  have f2 := foldl_accumulate _ ([] : SpT Q K) (by intro b hb; simp at hb) hv (by simp [UniqueLabels])
  refine ⟨f1.1, f2.1, f1.2.1, f2.2.1, ?_⟩
  rintro i j ⟨l, il⟩ ⟨r, ir⟩ ⟨hl, el⟩ ⟨hr, er⟩ y
  dsimp only at hl el hr er
  subst el er
  constructor
  · rw [f1.2.2, entry_nil, zero_add]
    exact entry_cells dq lq rq OpT.odd cells hcells i j l r hl hr y
  · rw [f2.2.2, entry_nil, zero_add]
    exact entry_cells dq lq rq OpT.even cells hcells i j l r hl hr y

end

/-- The labels `5, 7, 5` have the slots `(5, 0), (7, 0), (5, 1)`. -/
example : fromOpNames [5, 7, 5] = ([some (5, 0), some (7, 0), some (5, 1)], [(5, 2), (7, 1)]) := by decide

/-- Two operators in one sector of the right bond: each is read back from its own slot, with its factor. -/
example : (toSparse (K := Int) (0 : ZMod 4) [0] [1, 1]
      [⟨0, 0, 2, ⟨[([1, 0], ⟨[1, 1], fun _ => 5⟩)], []⟩⟩, ⟨0, 1, 3, ⟨[([1, 0], ⟨[1, 1], fun _ => 7⟩)], []⟩⟩]).map
    (fun T => [entry T.odd [(0, 0), (1, 0), (0, 0), (1, 0)], entry T.odd [(0, 0), (1, 0), (0, 0), (1, 1)]]) = some [10, 21] := by
  decide

end Symbolic
end Verif
