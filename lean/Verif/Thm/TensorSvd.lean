import Verif.Proof.TensorSvd
import Verif.Thm.CompressSvd
import Verif.Thm.FermSvdContract
import Mathlib.Analysis.Complex.Basic

/-! C61: `SparseTensor.tensor_svd`. -/

set_option linter.unusedSectionVars false

namespace Verif
namespace TSvd
open FermSplit BondFusingInfo

section
variable {Q K V : Type} [DecidableEq Q]

theorem inter_spec (a b : BondInfo Q) : Dict.WF (BondInfo.inter a b) ∧ ∀ e ∈ BondInfo.inter a b, 0 < e.2 := by
  unfold BondInfo.inter
  have key : ∀ (l : BondInfo Q) (r : BondInfo Q), (Dict.WF r ∧ ∀ e ∈ r, 0 < e.2) →
      Dict.WF (l.foldl (fun r (k, v) => let o := Counter.count b k; let n := if v < o then v else o; if 0 < n then Dict.set r k n else r) r) ∧
      ∀ e ∈ l.foldl (fun r (k, v) => let o := Counter.count b k; let n := if v < o then v else o; if 0 < n then Dict.set r k n else r) r, 0 < e.2 := by
    intro l
    induction l with
    | nil => intro r h; exact h
    | cons x l ih =>
      intro r h
      obtain ⟨k, v⟩ := x
      rw [List.foldl_cons]
      apply ih
      simp only
      split
      all_goals split
      all_goals first
        | exact h
        | (next hpos =>
            refine ⟨h.1.set _ _, ?_⟩
            rintro ⟨k', n'⟩ he
            have := Dict.get?_of_mem (h.1.set _ _) he
            rw [Dict.get?_set] at this
            split at this
            · cases this; exact hpos
            · exact h.2 _ (Dict.mem_of_get? this))
  exact key a [] ⟨Dict.WF.nil, by simp⟩

theorem mem_inter {a b : BondInfo Q} (ha : Dict.WF a) (q : Q) :
    q ∈ (BondInfo.inter a b).map Prod.fst ↔ 0 < Counter.count a q ∧ 0 < Counter.count b q := by
  have hc := C06_inter a b ha q
  obtain ⟨hw, hp⟩ := inter_spec a b
  constructor
  · intro h
    obtain ⟨e, he, rfl⟩ := List.mem_map.1 h
    have := Counter.count_of_mem hw (k := e.1) (n := e.2) he
    have := hp e he
    omega
  · intro h
    by_contra hn
    rw [Counter.count_of_not_mem hn] at hc
    omega

theorem entry_stored [AddCommGroup Q] [AddCommMonoid K] {real : K → K} (h0 : real 0 = 0) {T : SpT Q K} (hu : UniqueLabels T) (z : List (Q × Nat)) :
    entry (stored real T) z = real (entry T z) := by
  by_cases hm : z.map Prod.fst ∈ T.map Prod.fst
  · obtain ⟨b, hb, hbl⟩ := List.mem_map.1 hm
    have hb' : (b.1, b.2.mapK real) ∈ stored real T := List.mem_map.2 ⟨b, hb, rfl⟩
    rw [entry_of_mem hu hb hbl.symm, entry_of_mem (stored_unique real hu) hb' hbl.symm]
    unfold blockEntry Arr.mapK
    simp only
    split
    · rfl
    · exact h0.symm
  · rw [entry_of_not_mem hm, entry_of_not_mem (by rwa [stored_labels]), h0]

section
variable [AddCommGroup Q] [CommRing K] [AddCommMonoid V]
variable {legsL legsR : List (BondInfo Q)} {patL patR : List Bool} {T : SpT Q K} {leL : List Q → List Q → Bool} {linfo rinfo : BondFusingInfo Q}

/-- All sectors with their matrices. -/
def all (real : K → K) (svd : Arr K → Arr K × Arr V × Arr K) (n : Nat) (patL : List Bool) (T : SpT Q K) (linfo rinfo : BondFusingInfo Q) :
    List (Sector Q K × Arr K × Arr K) :=
  (BondInfo.inter linfo.quanta rinfo.quanta).map fun x =>
    let s := sec real n patL T linfo rinfo x.1
    (s, (svd s.data).1, (svd s.data).2.2)

/-- The singular values. -/
def vals (real : K → K) (svd : Arr K → Arr K × Arr V × Arr K) (n : Nat) (patL : List Bool) (T : SpT Q K) (linfo rinfo : BondFusingInfo Q) : SpT Q V :=
  (BondInfo.inter linfo.quanta rinfo.quanta).map fun x => ([x.1], (svd (sec real n patL T linfo rinfo x.1).data).2.1)

theorem tensorSvd_eq (h : Input legsL legsR patL patR T) (hT : T ≠ []) (hL : legsL ≠ []) (hR : legsR ≠ []) (ho : IsOrder leL) (real : K → K)
    (svd : Arr K → Arr K × Arr V × Arr K) :
    ∃ linfo rinfo, kronSum leL (T.map fun b => (b.1.take legsL.length, b.2.shape.take legsL.length)) none patL = some linfo ∧
      kronSum leL (T.map fun b => (b.1.drop legsL.length, b.2.shape.drop legsL.length)) none (patR.map (!·)) = some rinfo ∧
      T.tensorSvd leL svd real legsL.length (patL ++ patR) = some (leftOf (all real svd legsL.length patL T linfo rinfo),
        vals real svd legsL.length patL T linfo rinfo, rightOf (all real svd legsL.length patL T linfo rinfo)) := by
  obtain ⟨⟨linfo, hl⟩, rinfo, hr⟩ := h.items_unique leL
  refine ⟨linfo, rinfo, hl, hr, ?_⟩
  have hLpos : 0 < legsL.length := List.length_pos_iff.2 hL
  have hRpos : 0 < legsR.length := List.length_pos_iff.2 hR
  have hnd : T.ndim = legsL.length + legsR.length := by
    cases hTc : T with
    | nil => exact absurd hTc hT
    | cons b T' =>
      have := (h.conf b (by rw [hTc]; exact List.mem_cons_self)).lengths.2
      simpa [SpT.ndim] using this
  unfold SpT.tensorSvd
  rw [if_neg (by omega)]
  have e1 : (patL ++ patR).take legsL.length = patL := by rw [← h.lenL, List.take_left]
  have e2 : (patL ++ patR).drop legsL.length = patR := by rw [← h.lenL, List.drop_left]
  simp only [e1, e2, hl, hr, Option.bind_some]
  rw [if_neg (by
    simp only [List.any_eq_true, decide_eq_true_eq, not_exists, not_and, ne_eq, not_not]
    intro b hb
    exact h.balance hb)]
  simp only [Option.some.injEq, Prod.mk.injEq, List.flatMap_map, List.map_map]
  unfold leftOf rightOf all vals
  rw [List.flatMap_map, List.flatMap_map]
  refine ⟨?_, rfl, ?_⟩
  · apply List.flatMap_congr
    intro x _
    have := svdLeft_eq (leftTable ho hl x.1) (conv (x.1 :: ·) ((Dict.get? rinfo.finfo x.1).getD [])) (sec real legsL.length patL T linfo rinfo x.1).data
      (svd (sec real legsL.length patL T linfo rinfo x.1).data).1
    rw [List.map_map] at this
    exact this
  · apply List.flatMap_congr
    intro x _
    have := svdRight_eq (rightTable h ho hr x.1) (conv (· ++ [x.1]) ((Dict.get? linfo.finfo x.1).getD [])) (sec real legsL.length patL T linfo rinfo x.1).data
      (svd (sec real legsL.length patL T linfo rinfo x.1).data).2.2
    rw [List.map_map] at this
    exact this

/-- What is known of the sectors. -/
theorem sec_pos (h : Input legsL legsR patL patR T) (ho : IsOrder leL) (real : K → K)
    (hl : kronSum leL (T.map fun b => (b.1.take legsL.length, b.2.shape.take legsL.length)) none patL = some linfo)
    (hr : kronSum leL (T.map fun b => (b.1.drop legsL.length, b.2.shape.drop legsL.length)) none (patR.map (!·)) = some rinfo)
    {x : Q × Nat} (hx : x ∈ BondInfo.inter linfo.quanta rinfo.quanta) :
    SectorOk legsL legsR (fun l => leftLabel patL l 0) (stored real T) (sec real legsL.length patL T linfo rinfo x.1)
      (Counter.count linfo.quanta x.1) (Counter.count rinfo.quanta x.1) ∧ 0 < Counter.count linfo.quanta x.1 ∧ 0 < Counter.count rinfo.quanta x.1 :=
  ⟨secOk h ho real hl hr x.1, (mem_inter (kronSum_wf hl) x.1).1 (List.mem_map.2 ⟨x, hx, rfl⟩)⟩

variable (c : V → K) {svd : Arr K → Arr K × Arr V × Arr K}

theorem all_wid (hsvd : IsSvd c svd) (h : Input legsL legsR patL patR T) (ho : IsOrder leL) (real : K → K)
    (hl : kronSum leL (T.map fun b => (b.1.take legsL.length, b.2.shape.take legsL.length)) none patL = some linfo)
    (hr : kronSum leL (T.map fun b => (b.1.drop legsL.length, b.2.shape.drop legsL.length)) none (patR.map (!·)) = some rinfo)
    {x : Q × Nat} (hx : x ∈ BondInfo.inter linfo.quanta rinfo.quanta) :
    wid (sec real legsL.length patL T linfo rinfo x.1, (svd (sec real legsL.length patL T linfo rinfo x.1).data).1, (svd (sec real legsL.length patL T linfo rinfo x.1).data).2.2) =
      min (Counter.count linfo.quanta x.1) (Counter.count rinfo.quanta x.1) := by
  obtain ⟨ok, p1, p2⟩ := sec_pos h ho real hl hr hx
  unfold wid
  simp only
  rw [hsvd.left _ _ _ ok.data p1 p2]
  rfl

theorem all_split (hsvd : IsSvd c svd) (h : Input legsL legsR patL patR T) (ho : IsOrder leL) (real : K → K)
    (hl : kronSum leL (T.map fun b => (b.1.take legsL.length, b.2.shape.take legsL.length)) none patL = some linfo)
    (hr : kronSum leL (T.map fun b => (b.1.drop legsL.length, b.2.shape.drop legsL.length)) none (patR.map (!·)) = some rinfo) :
    SplitOf legsL legsR (fun l => leftLabel patL l 0) (stored real T) (all real svd legsL.length patL T linfo rinfo) := by
  refine ⟨stored_conforms real h.conf, stored_unique real h.uniq, ?_, ?_, ?_⟩
  · unfold all
    rw [List.map_map]
    exact (inter_spec linfo.quanta rinfo.quanta).1
  · intro e he
    obtain ⟨x, hx, rfl⟩ := List.mem_map.1 he
    exact ⟨_, _, (sec_pos h ho real hl hr hx).1⟩
  · intro e he
    obtain ⟨x, hx, rfl⟩ := List.mem_map.1 he
    obtain ⟨ok, p1, p2⟩ := sec_pos h ho real hl hr hx
    refine ⟨_, _, ok.data, ?_, ?_⟩
    · rw [all_wid c hsvd h ho real hl hr hx]
      exact hsvd.left _ _ _ ok.data p1 p2
    · rw [all_wid c hsvd h ho real hl hr hx]
      exact hsvd.right _ _ _ ok.data p1 p2

theorem valueBond_vals (hsvd : IsSvd c svd) (h : Input legsL legsR patL patR T) (ho : IsOrder leL) (real : K → K)
    (hl : kronSum leL (T.map fun b => (b.1.take legsL.length, b.2.shape.take legsL.length)) none patL = some linfo)
    (hr : kronSum leL (T.map fun b => (b.1.drop legsL.length, b.2.shape.drop legsL.length)) none (patR.map (!·)) = some rinfo) :
    valueBond (vals real svd legsL.length patL T linfo rinfo) = bondOf (all real svd legsL.length patL T linfo rinfo) := by
  unfold valueBond vals bondOf all
  rw [List.map_map, List.map_map]
  apply List.map_congr_left
  intro x hx
  obtain ⟨ok, p1, p2⟩ := sec_pos h ho real hl hr hx
  simp only [Function.comp_apply, List.headD_cons]
  rw [all_wid c hsvd h ho real hl hr hx, hsvd.values _ _ _ ok.data p1 p2]
  rfl

theorem bond_good (hsvd : IsSvd c svd) (h : Input legsL legsR patL patR T) (ho : IsOrder leL) (real : K → K)
    (hl : kronSum leL (T.map fun b => (b.1.take legsL.length, b.2.shape.take legsL.length)) none patL = some linfo)
    (hr : kronSum leL (T.map fun b => (b.1.drop legsL.length, b.2.shape.drop legsL.length)) none (patR.map (!·)) = some rinfo) :
    GoodBond (bondOf (all real svd legsL.length patL T linfo rinfo)) := by
  refine ⟨(all_split c hsvd h ho real hl hr).wfBond, ?_⟩
  intro y hy
  obtain ⟨e, he, rfl⟩ := List.mem_map.1 hy
  obtain ⟨x, hx, rfl⟩ := List.mem_map.1 he
  obtain ⟨ok, p1, p2⟩ := sec_pos h ho real hl hr hx
  simp only
  rw [all_wid c hsvd h ho real hl hr hx]
  omega

theorem entry_vals (hsvd : IsSvd c svd) (h : Input legsL legsR patL patR T) (ho : IsOrder leL) (real : K → K)
    (hl : kronSum leL (T.map fun b => (b.1.take legsL.length, b.2.shape.take legsL.length)) none patL = some linfo)
    (hr : kronSum leL (T.map fun b => (b.1.drop legsL.length, b.2.shape.drop legsL.length)) none (patR.map (!·)) = some rinfo)
    {x : Q × Nat} (hx : x ∈ BondInfo.inter linfo.quanta rinfo.quanta) {t : Nat}
    (ht : t < min (Counter.count linfo.quanta x.1) (Counter.count rinfo.quanta x.1)) :
    entry (vals real svd legsL.length patL T linfo rinfo) [(x.1, t)] = (svd (sec real legsL.length patL T linfo rinfo x.1).data).2.1.get [t] := by
  obtain ⟨ok, p1, p2⟩ := sec_pos h ho real hl hr hx
  have hu : UniqueLabels (vals real svd legsL.length patL T linfo rinfo) := by
    unfold UniqueLabels vals
    rw [List.map_map]
    have : (BondInfo.inter linfo.quanta rinfo.quanta).map (Prod.fst ∘ fun x => ([x.1], (svd (sec real legsL.length patL T linfo rinfo x.1).data).2.1)) =
        ((BondInfo.inter linfo.quanta rinfo.quanta).map Prod.fst).map fun q => [q] := by rw [List.map_map]; rfl
    rw [this]
    exact List.Nodup.map (fun a b h => (List.cons.inj h).1) (inter_spec linfo.quanta rinfo.quanta).1
  rw [entry_of_mem hu (b := ([x.1], (svd (sec real legsL.length patL T linfo rinfo x.1).data).2.1)) (List.mem_map.2 ⟨x, hx, rfl⟩) rfl]
  have hin : inBox (svd (sec real legsL.length patL T linfo rinfo x.1).data).2.1.shape [t] = true := by
    rw [hsvd.values _ _ _ ok.data p1 p2]
    simpa [inBox] using ht
  exact if_pos ⟨rfl, hin⟩

theorem rest_zero (h : Input legsL legsR patL patR T) (ho : IsOrder leL) (real : K → K) (svd : Arr K → Arr K × Arr V × Arr K)
    (hl : kronSum leL (T.map fun b => (b.1.take legsL.length, b.2.shape.take legsL.length)) none patL = some linfo)
    (hr : kronSum leL (T.map fun b => (b.1.drop legsL.length, b.2.shape.drop legsL.length)) none (patR.map (!·)) = some rinfo)
    (x y : List (Q × Nat)) (hx : x.length = legsL.length)
    (hn : leftLabel patL (x.map Prod.fst) 0 ∉ (all real svd legsL.length patL T linfo rinfo).map (fun e => e.1.label)) : entry (stored real T) (x ++ y) = 0 := by
  apply entry_of_not_mem
  rw [stored_labels]
  intro hm
  obtain ⟨b, hb, hbl⟩ := List.mem_map.1 hm
  apply hn
  obtain ⟨ht, hd⟩ := take_drop_map hx hbl
  have hq : leftLabel patL (x.map Prod.fst) 0 = combine (b.1.take legsL.length) patL := by
    rw [← ht, key_eq (by rw [h.lenL, h.lenLeft hb])]
  rw [hq]
  have : combine (b.1.take legsL.length) patL ∈ (BondInfo.inter linfo.quanta rinfo.quanta).map Prod.fst := by
    rw [mem_inter (kronSum_wf hl)]
    have hlab : b ∈ labelled legsL.length patL T (combine (b.1.take legsL.length) patL) := List.mem_filter.2 ⟨hb, by simp⟩
    have tl := leftTable ho hl (combine (b.1.take legsL.length) patL)
    have tr := rightTable h ho hr (combine (b.1.take legsL.length) patL)
    obtain ⟨k, hk⟩ := (tl.mem _ _).2 (List.mem_map.2 ⟨b, hlab, rfl⟩)
    obtain ⟨k', hk'⟩ := (tr.mem _ _).2 (List.mem_map.2 ⟨b, hlab, rfl⟩)
    obtain ⟨c1, c2⟩ := isCombination_split (h.conf b hb)
    have p1 := combination_pos (fun b hb => h.good b (List.mem_append_left _ hb)) c1
    have p2 := combination_pos (fun b hb => h.good b (List.mem_append_right _ hb)) c2
    have r1 := tl.tiled.range.2 _ (List.mem_map.2 ⟨_, Dict.mem_of_get? hk, rfl⟩)
    have r2 := tr.tiled.range.2 _ (List.mem_map.2 ⟨_, Dict.mem_of_get? hk', rfl⟩)
    simp only at r1 r2
    omega
  obtain ⟨e, he, heq⟩ := List.mem_map.1 this
  unfold all
  rw [List.map_map]
  exact List.mem_map.2 ⟨e, he, heq⟩

end

section
variable [AddCommGroup Q] [CommRing K] [StarRing K] [AddCommMonoid V] [LE V]
variable {legsL legsR : List (BondInfo Q)} {patL patR : List Bool} {T : SpT Q K} {leL : List Q → List Q → Bool}

/-- C61: cut at any place between its legs, a tensor whose labels add up to zero is decomposed.  The three tensors have the old legs and a new bond in the
middle, which is that of the singular values; they are sorted as the truncation needs it; the labels of each factor add up to zero; the product of the
factors is the tensor with each number replaced by what a matrix of real numbers keeps of it (`real`); with the contract of the dense routine, the left
factor is an isometry to its left legs, the right one to its right legs, and no value is negative. -/
theorem C61_decomposition (c : V → K) {svd : Arr K → Arr K × Arr V × Arr K} (hsvd : IsSvd c svd) (ho : IsOrder leL) {real : K → K} (h0 : real 0 = 0)
    (h : Input legsL legsR patL patR T) (hT : T ≠ []) (hL : legsL ≠ []) (hR : legsR ≠ []) :
    ∃ l s r, T.tensorSvd leL svd real legsL.length (patL ++ patR) = some (l, s, r) ∧
      ValueBlocks s ∧ Conforms (legsL ++ [valueBond s]) l ∧ Conforms (valueBond s :: legsR) r ∧ UniqueLabels l ∧ UniqueLabels r ∧
      SortedBy ((valueBond s).map Prod.fst) (fun b => b.1.getLastD 0) l ∧ SortedBy ((valueBond s).map Prod.fst) (fun b => b.1.getD 0 0) r ∧
      Conserves (patL ++ [false]) 0 l ∧ Conserves (true :: patR) 0 r ∧
      (∀ x y, x.length = legsL.length → y.length = legsR.length →
        ((legBasis (valueBond s)).map fun z => entry l (x ++ [z]) * c (entry s [z]) * entry r (z :: y)).sum = real (entry T (x ++ y))) ∧
      (SvdUnitary svd → LeftIsometric legsL (valueBond s) l ∧ RightIsometric (valueBond s) legsR r) ∧
      (SvdSorted svd → ∀ z ∈ legBasis (valueBond s), 0 ≤ entry s [z]) := by
  obtain ⟨linfo, rinfo, hl, hr, heq⟩ := tensorSvd_eq h hT hL hR ho real svd
  have hsp := all_split c hsvd h ho real hl hr
  have hbond := valueBond_vals c hsvd h ho real hl hr
  have hgood := bond_good c hsvd h ho real hl hr
  have hsec := fun x hx => sec_pos (x := x) h ho real hl hr hx
  refine ⟨_, _, _, heq, ⟨?_, ?_, by rw [hbond]; exact hgood⟩, by rw [hbond]; exact hsp.conforms_left, by rw [hbond]; exact hsp.conforms_right, hsp.unique_left,
    hsp.unique_right, ?_, ?_, ?_, ?_, ?_, ?_, ?_⟩
  · intro b hb
    obtain ⟨x, _, rfl⟩ := List.mem_map.1 hb
    rfl
  · intro b hb
    obtain ⟨x, hx, rfl⟩ := List.mem_map.1 hb
    obtain ⟨ok, p1, p2⟩ := hsec x hx
    simp only
    rw [hsvd.values _ _ _ ok.data p1 p2]
    rfl
  · have e1 : (valueBond (vals real svd legsL.length patL T linfo rinfo)).map Prod.fst = (BondInfo.inter linfo.quanta rinfo.quanta).map Prod.fst := by
      rw [hbond]; unfold bondOf all; rw [List.map_map, List.map_map]; rfl
    rw [e1]
    unfold leftOf all
    rw [List.flatMap_map]
    refine sortedBy_groups (inter_spec linfo.quanta rinfo.quanta).1 _ _ ?_ ?_
    · intro x hx b hb
      obtain ⟨r, hr', rfl⟩ := List.mem_map.1 hb
      obtain ⟨_, _, _, hk, _⟩ := (hsec x hx).1.rowKey r hr'
      simp only
      rw [hk]
      simp [sec]
    · intro x hx hnil
      obtain ⟨ok, p1, _⟩ := hsec x hx
      exact tiled_ne ok.rowsTiled p1 (List.map_eq_nil_iff.1 hnil)
  · have e1 : (valueBond (vals real svd legsL.length patL T linfo rinfo)).map Prod.fst = (BondInfo.inter linfo.quanta rinfo.quanta).map Prod.fst := by
      rw [hbond]; unfold bondOf all; rw [List.map_map, List.map_map]; rfl
    rw [e1]
    unfold rightOf all
    rw [List.flatMap_map]
    refine sortedBy_groups (inter_spec linfo.quanta rinfo.quanta).1 _ _ ?_ ?_
    · intro x hx b hb
      obtain ⟨r, hr', rfl⟩ := List.mem_map.1 hb
      obtain ⟨_, _, _, hk, _⟩ := (hsec x hx).1.colKey r hr'
      simp only
      rw [hk]
      simp [sec]
    · intro x hx hnil
      obtain ⟨ok, _, p2⟩ := hsec x hx
      exact tiled_ne ok.colsTiled p2 (List.map_eq_nil_iff.1 hnil)
  · have hcs : Conserves (patL ++ patR) (0 + 0) (stored real T) := by
      intro b hb
      obtain ⟨b', hb', rfl⟩ := List.mem_map.1 hb
      rw [add_zero]
      exact h.charge b' hb'
    exact (hsp.conserves h.lenL hcs).1
  · have hcs : Conserves (patL ++ patR) (0 + 0) (stored real T) := by
      intro b hb
      obtain ⟨b', hb', rfl⟩ := List.mem_map.1 hb
      rw [add_zero]
      exact h.charge b' hb'
    exact (hsp.conserves h.lenL hcs).2
  · intro x y hx _
    rw [hbond, ← entry_stored h0 h.uniq]
    refine hsp.whole' (fun z => c (entry (vals real svd legsL.length patL T linfo rinfo) [z])) ?_ (rest_zero h ho real svd hl hr) hx
    intro e he R C hRC i hi j hj
    obtain ⟨x, hx, rfl⟩ := List.mem_map.1 he
    obtain ⟨ok, p1, p2⟩ := hsec x hx
    have hdat := ok.data
    simp only at hRC
    rw [hRC] at hdat
    obtain ⟨rfl, rfl⟩ : R = _ ∧ C = _ := by simpa using hdat
    rw [all_wid c hsvd h ho real hl hr hx, ← hsvd.product _ _ _ ok.data p1 p2 i hi j hj]
    apply sum_map_congr'
    intro t ht
    rw [List.mem_range] at ht
    have : (sec real legsL.length patL T linfo rinfo x.1).label = x.1 := rfl
    simp only [this]
    rw [entry_vals c hsvd h ho real hl hr hx ht]
  · intro hun
    rw [hbond]
    constructor
    · refine hsp.isometric_left (fun b hb => (h.good b (List.mem_append_left _ hb)).1) ?_
      intro e he R C hRC t ht t' ht'
      obtain ⟨x, hx, rfl⟩ := List.mem_map.1 he
      obtain ⟨ok, p1, p2⟩ := hsec x hx
      rw [all_wid c hsvd h ho real hl hr hx] at ht ht'
      have hdat := ok.data
      simp only at hRC
      rw [hRC] at hdat
      obtain ⟨rfl, rfl⟩ : R = _ ∧ C = _ := by simpa using hdat
      exact hun.columns _ _ _ ok.data p1 p2 t ht t' ht'
    · refine hsp.isometric_right (fun b hb => (h.good b (List.mem_append_right _ hb)).1) (fun l => 0 - signedSum patR l - 0) ?_ ?_
      · have hcs : Conserves (patL ++ patR) 0 (stored real T) := by
          intro b hb
          obtain ⟨b', hb', rfl⟩ := List.mem_map.1 hb
          exact h.charge b' hb'
        exact keyRight h.lenL (stored_conforms real h.conf) hcs
      · intro e he R C hRC t ht t' ht'
        obtain ⟨x, hx, rfl⟩ := List.mem_map.1 he
        obtain ⟨ok, p1, p2⟩ := hsec x hx
        rw [all_wid c hsvd h ho real hl hr hx] at ht ht'
        have hdat := ok.data
        simp only at hRC
        rw [hRC] at hdat
        obtain ⟨rfl, rfl⟩ : R = _ ∧ C = _ := by simpa using hdat
        exact hun.rows _ _ _ ok.data p1 p2 t ht t' ht'
  · intro hso z hz
    rw [hbond] at hz
    obtain ⟨e, he, _, hl', ht⟩ := mem_bondOf hsp hz
    obtain ⟨x, hx, rfl⟩ := List.mem_map.1 he
    obtain ⟨ok, p1, p2⟩ := hsec x hx
    rw [all_wid c hsvd h ho real hl hr hx] at ht
    have hz' : z = (x.1, z.2) := by
      rw [show x.1 = z.1 from hl']
    rw [hz', entry_vals c hsvd h ho real hl hr hx ht]
    exact (hso _ _ _ ok.data p1 p2).2 _ ht

/-- C61: a tensor with a block whose labels do not add up to zero is rejected. -/
theorem C61_rejects (svd : Arr K → Arr K × Arr V × Arr K) (leL : List Q → List Q → Bool) (real : K → K) (n : Nat) (patL patR : List Bool) (hn : patL.length = n) (T : SpT Q K)
    (b : List Q × Arr K) (hb : b ∈ T) (hlen : n ≤ b.1.length) (hc : signedSum (patL ++ patR) b.1 ≠ 0) : T.tensorSvd leL svd real n (patL ++ patR) = none := by
  unfold SpT.tensorSvd
  split
  · rfl
  · have e1 : (patL ++ patR).take n = patL := by rw [← hn, List.take_left]
    have e2 : (patL ++ patR).drop n = patR := by rw [← hn, List.drop_left]
    simp only [e1, e2]
    cases kronSum leL (T.map fun b => (b.1.take n, b.2.shape.take n)) none patL with
    | none => rfl
    | some linfo =>
      cases kronSum leL (T.map fun b => (b.1.drop n, b.2.shape.drop n)) none (patR.map (!·)) with
      | none => rfl
      | some rinfo =>
        simp only [Option.bind_some]
        rw [if_pos]
        simp only [List.any_eq_true, decide_eq_true_eq]
        refine ⟨b, hb, ?_⟩
        rw [combine_eq, combine_eq, signedSum_flip]
        intro h
        apply hc
        rw [← List.take_append_drop n b.1, signedSum_append _ _ _ _ (by rw [hn, List.length_take]; omega), h]
        simp

end

/-! ### Concrete cases -/

/-- Order of lists of integers, shorter first. -/
def leInt : List Int → List Int → Bool
  | [], _ => true
  | _ :: _, [] => false
  | a :: l, b :: m => decide (a < b) || (decide (a = b) && leInt l m)

theorem leInt_order : IsOrder leInt := by
  refine ⟨?_, ?_, ?_⟩
  · intro a
    induction a with
    | nil => intro b; left; cases b <;> rfl
    | cons x a ih =>
      intro b
      cases b with
      | nil => right; rfl
      | cons y b =>
        simp only [leInt, Bool.or_eq_true, Bool.and_eq_true, decide_eq_true_eq]
        rcases lt_trichotomy x y with h | h | h
        · exact Or.inl (Or.inl h)
        · subst h
          rcases ih b with h | h
          · exact Or.inl (Or.inr ⟨rfl, h⟩)
          · exact Or.inr (Or.inr ⟨rfl, h⟩)
        · exact Or.inr (Or.inl h)
  · intro a
    induction a with
    | nil => intro b c _ _; cases c <;> rfl
    | cons x a ih =>
      intro b c h1 h2
      cases b with
      | nil => simp [leInt] at h1
      | cons y b =>
        cases c with
        | nil => simp [leInt] at h2
        | cons z c =>
          simp only [leInt, Bool.or_eq_true, Bool.and_eq_true, decide_eq_true_eq] at *
          rcases h1 with h1 | ⟨rfl, h1⟩ <;> rcases h2 with h2 | ⟨rfl, h2⟩
          · exact Or.inl (lt_trans h1 h2)
          · exact Or.inl h1
          · exact Or.inl h2
          · exact Or.inr ⟨rfl, ih b c h1 h2⟩
  · intro a
    induction a with
    | nil => intro b _ h; cases b with
      | nil => rfl
      | cons => simp [leInt] at h
    | cons x a ih =>
      intro b h1 h2
      cases b with
      | nil => simp [leInt] at h1
      | cons y b =>
        simp only [leInt, Bool.or_eq_true, Bool.and_eq_true, decide_eq_true_eq] at *
        rcases h1 with h1 | ⟨rfl, h1⟩ <;> rcases h2 with h2 | ⟨h2', h2⟩
        · omega
        · omega
        · omega
        · rw [ih b h1 h2]

/-- A tensor with four legs and two sectors; the second one has two rows of labels, given in the wrong order. -/
def exT (f : List Nat → K) : SpT Int K :=
  [([1, 0, 0, 1], ⟨[1, 2, 1, 2], f⟩), ([0, 1, 1, 0], ⟨[2, 1, 2, 1], f⟩), ([0, 0, 0, 0], ⟨[2, 2, 1, 1], f⟩)]

def exB : BondInfo Int := [(0, 2), (1, 1)]
def exB' : BondInfo Int := [(0, 1), (1, 2)]

theorem exT_input (f : List Nat → K) : Input [exB, [(0, 2), (1, 1)]] [exB', [(0, 1), (1, 2)]] [true, true] [false, false] (exT f) := by
  refine ⟨?_, ?_, ?_, rfl, rfl, ?_⟩
  · intro b hb
    simp only [exT, List.mem_cons, List.not_mem_nil, or_false] at hb
    rcases hb with rfl | rfl | rfl
    all_goals exact .cons rfl (.cons rfl (.cons rfl (.cons rfl .nil)))
  · simp [UniqueLabels, exT]
  · intro b hb
    simp only [exB, exB', List.cons_append, List.nil_append, List.mem_cons, List.not_mem_nil, or_false] at hb
    rcases hb with rfl | rfl | rfl | rfl <;> simp [GoodBond, Dict.WF]
  · intro b hb
    simp only [exT, List.mem_cons, List.not_mem_nil, or_false] at hb
    rcases hb with rfl | rfl | rfl <;> simp [signedSum]

/-- All hypotheses of `C61_decomposition` hold for a tensor of real numbers; nothing gets lost there. -/
example : ∃ svd : Arr ℝ → Arr ℝ × Arr ℝ × Arr ℝ, ∃ l s r, (exT (fun ix => (ix.sum : ℝ) + 1)).tensorSvd leInt svd id 2 [true, true, false, false] = some (l, s, r) ∧
    (∀ x y, x.length = 2 → y.length = 2 →
      ((legBasis (valueBond s)).map fun z => entry l (x ++ [z]) * entry s [z] * entry r (z :: y)).sum = entry (exT (fun ix => (ix.sum : ℝ) + 1)) (x ++ y)) ∧
    LeftIsometric [exB, [(0, 2), (1, 1)]] (valueBond s) l := by
  obtain ⟨svd, s1, s2, s3⟩ := C51_contract ℝ
  obtain ⟨l, s, r, h, _, _, _, _, _, _, _, _, _, hp, hi, _⟩ := C61_decomposition (algebraMap ℝ ℝ) s1 leInt_order (real := id) rfl (exT_input fun ix => (ix.sum : ℝ) + 1)
    (by simp [exT]) (by simp) (by simp)
  exact ⟨svd, l, s, r, h, hp, (hi s2).1⟩

/-- C61: a tensor of complex numbers is not the product of its factors: the matrices are real, and what is decomposed is the real part of the tensor.  Here is a
tensor that meets all hypotheses, with an entry that every decomposition gives as zero although it is not. -/
theorem C61_complex_violated (svd : Arr ℂ → Arr ℂ × Arr ℝ × Arr ℂ) (hsvd : IsSvd (algebraMap ℝ ℂ) svd) :
    ∃ (T : SpT Int ℂ) (x y : List (Int × Nat)) (l : SpT Int ℂ) (s : SpT Int ℝ) (r : SpT Int ℂ),
      Input [exB, [(0, 2), (1, 1)]] [exB', [(0, 1), (1, 2)]] [true, true] [false, false] T ∧ x.length = 2 ∧ y.length = 2 ∧
      T.tensorSvd leInt svd (fun v => (v.re : ℂ)) 2 [true, true, false, false] = some (l, s, r) ∧ entry T (x ++ y) = Complex.I ∧
      ((legBasis (valueBond s)).map fun z => entry l (x ++ [z]) * (algebraMap ℝ ℂ) (entry s [z]) * entry r (z :: y)).sum = 0 := by
  obtain ⟨l, s, r, h, _, _, _, _, _, _, _, _, _, hp, _, _⟩ := C61_decomposition (algebraMap ℝ ℂ) hsvd leInt_order (real := fun v : ℂ => (v.re : ℂ)) (by simp)
    (exT_input fun _ => Complex.I) (by simp [exT]) (by simp) (by simp)
  have he : entry (exT (K := ℂ) fun _ => Complex.I) [(0, 0), (0, 0), (0, 0), (0, 0)] = Complex.I := by
    simp [entry, exT, blockEntry, inBox]
  refine ⟨_, [(0, 0), (0, 0)], [(0, 0), (0, 0)], l, s, r, exT_input fun _ => Complex.I, rfl, rfl, h, he, ?_⟩
  rw [hp _ _ rfl rfl]
  have : ([(0, 0), (0, 0)] ++ [(0, 0), (0, 0)] : List (Int × Nat)) = [(0, 0), (0, 0), (0, 0), (0, 0)] := rfl
  rw [this, he]
  simp

end
end TSvd
end Verif
