import Verif.Proof.MpsInfoExact
import Mathlib.Data.Rat.Defs
import Mathlib.Algebra.Field.Rat

/-! Property C68: the bonds of a state and the states made from them. -/

set_option linter.unusedSectionVars false

namespace Verif
section
variable {Q K : Type} [DecidableEq Q] [AddCommGroup Q]
open BondInfo

/-! ### The full bonds -/

theorem fci_left_getD (vacuum target : Q) (basis : List (BondInfo Q)) {d : Nat} (hd : d ≤ basis.length) :
    (MpsInfo.fci vacuum target basis).leftDims.getD d [] =
      BondInfo.filter ((MpsInfo.leftFull [(vacuum, 1)] basis).getD d []) ((MpsInfo.rightFull target basis).getD d []) := by
  unfold MpsInfo.fci
  simp only
  exact zipWith_getD _ _ _ _ _ (by rw [leftFull_length]; omega) (by rw [rightFull_length]; omega)

theorem fci_right_getD (vacuum target : Q) (basis : List (BondInfo Q)) {d : Nat} (hd : d ≤ basis.length) :
    (MpsInfo.fci vacuum target basis).rightDims.getD d [] =
      BondInfo.filter ((MpsInfo.rightFull target basis).getD d []) ((MpsInfo.fci vacuum target basis).leftDims.getD d []) := by
  rw [fci_left_getD _ _ _ hd]
  unfold MpsInfo.fci
  simp only
  rw [zipWith_getD _ _ _ _ _ (by rw [rightFull_length]; omega) (by rw [List.length_zipWith, leftFull_length, rightFull_length]; omega),
    zipWith_getD _ _ _ _ _ (by rw [leftFull_length]; omega) (by rw [rightFull_length]; omega)]

/-- C68: after `set_bond_dimension_fci` every bond, from the left and from the right, has for each label as many basis vectors as the smaller of the number of
configurations on its left that lead from the vacuum to the label and the number of configurations on its right that lead from the label to the target.
There are no empty sectors. -/
theorem C68_fci (vacuum target : Q) (basis : List (BondInfo Q)) (hb : ∀ b ∈ basis, GoodBond b) :
    (MpsInfo.fci vacuum target basis).leftDims.length = basis.length + 1 ∧ (MpsInfo.fci vacuum target basis).rightDims.length = basis.length + 1 ∧
    ∀ d, d ≤ basis.length →
      GoodBond ((MpsInfo.fci vacuum target basis).leftDims.getD d []) ∧ GoodBond ((MpsInfo.fci vacuum target basis).rightDims.getD d []) ∧
      ∀ q, Counter.count ((MpsInfo.fci vacuum target basis).leftDims.getD d []) q =
          min (leftStates vacuum basis d q).length (rightStates target basis d q).length ∧
        Counter.count ((MpsInfo.fci vacuum target basis).rightDims.getD d []) q =
          min (leftStates vacuum basis d q).length (rightStates target basis d q).length := by
  have hw : ∀ b ∈ basis, Dict.WF b := fun b h => (hb b h).1
  refine ⟨?_, ?_, fun d hd => ?_⟩
  · simp [MpsInfo.fci, leftFull_length, rightFull_length]
  · simp [MpsInfo.fci, leftFull_length, rightFull_length]
  have gl : GoodBond ((MpsInfo.leftFull [(vacuum, 1)] basis).getD d []) := by
    rw [leftFull_getD _ _ _ hd]
    exact fold_good (good_single vacuum) _ fun b h => hb b (List.mem_of_mem_take h)
  have gr : GoodBond ((MpsInfo.rightFull target basis).getD d []) := by
    rw [rightFull_getD _ _ _ hd]
    exact right_good _ _ fun b h => hb b (List.mem_of_mem_drop h)
  have gf := filter_good gl gr
  refine ⟨?_, ?_, fun q => ⟨?_, ?_⟩⟩
  · rw [fci_left_getD _ _ _ hd]; exact gf
  · rw [fci_right_getD _ _ _ hd, fci_left_getD _ _ _ hd]; exact filter_good gr gf
  · rw [fci_left_getD _ _ _ hd, C06_filter _ _ gl.1, count_left hd, count_right hw hd]
  · rw [fci_right_getD _ _ _ hd, fci_left_getD _ _ _ hd, C06_filter _ _ gr.1, C06_filter _ _ gl.1, count_left hd, count_right hw hd]
    omega

/-- Two sites with the labels 0 (twice) and 1: the bond in the middle. -/
example : (MpsInfo.fci (0 : Int) 1 [[(0, 2), (1, 1)], [(0, 2), (1, 1)]]).leftDims = [[(0, 1)], [(0, 1), (1, 1)], [(1, 1)]] := by decide +kernel

example : GoodBond ([(0, 2), (1, 1)] : BondInfo Int) := ⟨by decide, by decide⟩

/-! ### The truncated bonds -/

theorem truncLeft_length (M : Nat) (p : BondInfo Q) (bs ls : List (BondInfo Q)) (h : ls.length = bs.length) :
    (MpsInfo.truncLeft M p bs ls).length = bs.length := by
  induction bs generalizing p ls with
  | nil => simp [MpsInfo.truncLeft]
  | cons b bs ih =>
    obtain _ | ⟨l, ls⟩ := ls
    · simp at h
    · simp [MpsInfo.truncLeft, ih _ ls (by simpa using h)]

theorem truncLeft_getD (M : Nat) (p : BondInfo Q) (bs ls : List (BondInfo Q)) (h : ls.length = bs.length) {d : Nat} (hd : d < bs.length) :
    (p :: MpsInfo.truncLeft M p bs ls).getD (d + 1) [] =
      truncate (ls.getD d []) M (some (tensorProduct ((p :: MpsInfo.truncLeft M p bs ls).getD d []) (bs.getD d []) none)) := by
  induction bs generalizing p ls d with
  | nil => simp at hd
  | cons b bs ih =>
    obtain _ | ⟨l, ls⟩ := ls
    · simp at h
    rw [List.getD_cons_succ, MpsInfo.truncLeft]
    cases d with
    | zero => rfl
    | succ d =>
      rw [ih _ ls (by simpa using h) (by simpa using hd)]
      simp only [List.getD_cons_succ]

theorem truncRight_length (M : Nat) (bs rs : List (BondInfo Q)) : (MpsInfo.truncRight M bs rs).length = rs.length := by
  induction bs generalizing rs with
  | nil => simp [MpsInfo.truncRight]
  | cons b bs ih =>
    obtain _ | ⟨r, rs⟩ := rs
    · simp [MpsInfo.truncRight]
    · simp [MpsInfo.truncRight, ih rs]

theorem truncRight_getD (M : Nat) (bs rs : List (BondInfo Q)) (h : rs.length = bs.length + 1) {d : Nat} (hd : d < bs.length) :
    (MpsInfo.truncRight M bs rs).getD d [] =
      truncate (rs.getD d []) M (some (tensorProduct (negKeys (bs.getD d [])) ((MpsInfo.truncRight M bs rs).getD (d + 1) []) none)) := by
  induction bs generalizing rs d with
  | nil => simp at hd
  | cons b bs ih =>
    obtain _ | ⟨r, rs⟩ := rs
    · simp at h
    rw [MpsInfo.truncRight]
    cases d with
    | zero =>
      simp only [List.getD_cons_zero, List.getD_cons_succ]
      congr 4
      cases MpsInfo.truncRight M bs rs <;> rfl
    | succ d =>
      simp only [List.getD_cons_succ]
      exact ih rs (by simpa using h) (by simpa using hd)

theorem truncRight_end (M : Nat) (bs rs : List (BondInfo Q)) (h : rs.length = bs.length + 1) :
    (MpsInfo.truncRight M bs rs).getD bs.length [] = rs.getD bs.length [] := by
  induction bs generalizing rs with
  | nil => simp [MpsInfo.truncRight]
  | cons b bs ih =>
    obtain _ | ⟨r, rs⟩ := rs
    · simp at h
    rw [MpsInfo.truncRight]
    simp only [List.length_cons, List.getD_cons_succ]
    exact ih rs (by simpa using h)

theorem mem_of_count {b : BondInfo Q} {q : Q} (h : 0 < Counter.count b q) : q ∈ Dict.keys b := by
  have := Dict.mem_of_get? (get_of_count h)
  exact List.mem_map.2 ⟨_, this, rfl⟩

theorem good_count {b : BondInfo Q} (hb : GoodBond b) {q : Q} (h : q ∈ Dict.keys b) : 0 < Counter.count b q := by
  obtain ⟨x, hx, rfl⟩ := List.mem_map.1 h
  rw [Counter.count_of_mem hb.1 (show (x.1, x.2) ∈ b from hx)]
  exact hb.2 x hx

theorem sum_pos_of_mem {α : Type} {l : List α} {f : α → Nat} {a : α} (ha : a ∈ l) (h : 0 < f a) : 0 < (l.map f).sum :=
  lt_of_lt_of_le h (List.single_le_sum (by simp) _ (List.mem_map.2 ⟨a, ha, rfl⟩))

/-- The truncated bond next to bonds that kept their labels. -/
theorem truncate_keeps {a r : BondInfo Q} {M : Nat} (ha : GoodBond a) (hr : ∀ k ∈ Dict.keys a, 0 < Counter.count r k) :
    Dict.keys (truncate a M (some r)) = Dict.keys a ∧ GoodBond (truncate a M (some r)) ∧
      10 * nBonds (truncate a M (some r)) ≤ 10 * M + 11 * a.length := by
  refine ⟨C07_keys _ _ _, ⟨?_, ?_⟩, ?_⟩
  · have h := C07_keys a M (some r)
    unfold Dict.WF
    unfold Dict.keys at h
    rw [h]
    exact ha.1
  · refine C07_positive _ _ _ ha.2 ?_
    intro r' hr' x hx
    simp only [Option.mem_def, Option.some.injEq] at hr'
    subst hr'
    exact hr _ (List.mem_map.2 ⟨x, hx, rfl⟩)
  · by_cases h : nBonds a ≤ M
    · rw [(C07_fits a M (some r) h).1]; omega
    · exact le_of_lt (C07_overshoot a M (some r) (by omega))

theorem nBonds_single (v : Q) : nBonds ([(v, 1)] : BondInfo Q) = 1 := rfl

theorem eq_single {b : BondInfo Q} (hb : GoodBond b) {v : Q} (h : ∀ q, Counter.count b q = if q = v then 1 else 0) : b = [(v, 1)] := by
  have hx : ∀ x ∈ b, x = (v, 1) := by
    intro x hx
    have h1 := Counter.count_of_mem hb.1 (show (x.1, x.2) ∈ b from hx)
    have h2 := hb.2 x hx
    rw [h] at h1
    by_cases e : x.1 = v
    · rw [if_pos e] at h1
      exact Prod.ext e h1.symm
    · rw [if_neg e] at h1
      omega
  obtain _ | ⟨y, t⟩ := b
  · have := h v
    simp at this
  · have hy := hx y List.mem_cons_self
    obtain _ | ⟨z, t⟩ := t
    · rw [hy]
    · have hz := hx z (by simp)
      have := hb.1
      rw [hy, hz] at this
      simp [Dict.WF] at this

theorem eq_nil_of_count {b : BondInfo Q} (hb : GoodBond b) (h : ∀ q, Counter.count b q = 0) : b = [] := by
  obtain _ | ⟨y, t⟩ := b
  · rfl
  · have h1 := Counter.count_of_mem hb.1 (show (y.1, y.2) ∈ y :: t from List.mem_cons_self)
    have h2 := hb.2 y List.mem_cons_self
    rw [h] at h1
    omega

theorem states_pass {vacuum target : Q} {basis : List (BondInfo Q)} {d : Nat} (hd : d < basis.length) {q : Q}
    (hl : 0 < (leftStates vacuum basis (d + 1) q).length) (hr : 0 < (rightStates target basis (d + 1) q).length) :
    ∃ s ∈ legBasis (basis.getD d []), 0 < (leftStates vacuum basis d (q - s.1)).length ∧ 0 < (rightStates target basis d (q - s.1)).length := by
  obtain ⟨a, ha⟩ := List.exists_mem_of_length_pos hl
  obtain ⟨b, hb⟩ := List.exists_mem_of_length_pos hr
  rw [mem_leftStates, take_succ_getD hd] at ha
  obtain ⟨a', ha', c, hc, rfl⟩ := mem_legIndices_append ha.1
  obtain ⟨s, hs, e, he, rfl⟩ := mem_legIndices_cons.1 hc
  have : e = [] := by simpa [legIndices, cart] using he
  subst this
  have e1 : vacuum + totalCharge a' = q - s.1 := by
    rw [← ha.2, totalCharge_append, totalCharge_cons, totalCharge_nil]
    abel
  refine ⟨s, hs, List.length_pos_of_mem (mem_leftStates.2 ⟨ha', e1⟩), List.length_pos_of_mem ((rightStates_cons hd hs).2 ?_ : s :: b ∈ _)⟩
  rwa [sub_add_cancel]

theorem states_pass_right {vacuum target : Q} {basis : List (BondInfo Q)} {d : Nat} (hd : d < basis.length) {q : Q}
    (hl : 0 < (leftStates vacuum basis d q).length) (hr : 0 < (rightStates target basis d q).length) :
    ∃ s ∈ legBasis (basis.getD d []), 0 < (leftStates vacuum basis (d + 1) (q + s.1)).length ∧ 0 < (rightStates target basis (d + 1) (q + s.1)).length := by
  obtain ⟨a, ha⟩ := List.exists_mem_of_length_pos hl
  obtain ⟨b, hb⟩ := List.exists_mem_of_length_pos hr
  have hb' := (mem_rightStates.1 hb).1
  rw [drop_eq_getD_cons hd] at hb'
  obtain ⟨s, hs, e, he, rfl⟩ := mem_legIndices_cons.1 hb'
  exact ⟨s, hs, List.length_pos_of_mem (leftStates_snoc hd ha hs), List.length_pos_of_mem ((rightStates_cons hd hs).1 hb)⟩

/-- C68: `set_bond_dimension` with limit `M` keeps every label of every full bond with at least one basis vector, and the number of basis vectors of a bond
exceeds `M` by at most 1.1 for each label. -/
theorem C68_truncated (vacuum target : Q) (basis : List (BondInfo Q)) (hb : ∀ b ∈ basis, GoodBond b) (M : Nat) :
    let full := MpsInfo.fci vacuum target basis
    let cut := MpsInfo.truncated full M
    cut.leftDims.length = basis.length + 1 ∧ cut.rightDims.length = basis.length + 1 ∧
    ∀ d, d ≤ basis.length →
      (Dict.keys (cut.leftDims.getD d []) = Dict.keys (full.leftDims.getD d []) ∧ GoodBond (cut.leftDims.getD d []) ∧
        10 * nBonds (cut.leftDims.getD d []) ≤ 10 * M + 11 * (full.leftDims.getD d []).length) ∧
      (Dict.keys (cut.rightDims.getD d []) = Dict.keys (full.rightDims.getD d []) ∧ GoodBond (cut.rightDims.getD d []) ∧
        10 * nBonds (cut.rightDims.getD d []) ≤ 10 * M + 11 * (full.rightDims.getD d []).length) := by
  intro full cut
  obtain ⟨ll, lr, hf⟩ := C68_fci vacuum target basis hb
  have hlt : full.leftDims.tail.length = basis.length := by rw [List.length_tail, ll]; rfl
  have hfirst : full.leftDims.getD 0 [] = full.leftDims.headD [] := by cases full.leftDims <;> rfl
  have htail : ∀ d, full.leftDims.tail.getD d [] = full.leftDims.getD (d + 1) [] := by
    intro d
    cases full.leftDims <;> rfl
  have cl : cut.leftDims = full.leftDims.headD [] :: MpsInfo.truncLeft M (full.leftDims.headD []) basis full.leftDims.tail := rfl
  have cr : cut.rightDims = MpsInfo.truncRight M basis full.rightDims := rfl
  have one : ∀ {b : BondInfo Q}, GoodBond b → (∀ q, Counter.count b q ≤ 1) → 10 * nBonds b ≤ 10 * M + 11 * b.length := by
    intro b hg h
    have : nBonds b ≤ b.length := by
      unfold nBonds Dict.values
      calc (b.map Prod.snd).sum ≤ (b.map fun _ => 1).sum := by
            apply List.sum_le_sum
            intro x hx
            have h1 := Counter.count_of_mem hg.1 (show (x.1, x.2) ∈ b from hx)
            rw [← h1]
            exact h x.1
        _ = b.length := by simp
    omega
  have left : ∀ d, d ≤ basis.length → (Dict.keys (cut.leftDims.getD d []) = Dict.keys (full.leftDims.getD d []) ∧ GoodBond (cut.leftDims.getD d []) ∧
        10 * nBonds (cut.leftDims.getD d []) ≤ 10 * M + 11 * (full.leftDims.getD d []).length) := by
    intro d
    induction d with
    | zero =>
      intro hd
      have e : cut.leftDims.getD 0 [] = full.leftDims.getD 0 [] := by rw [cl, hfirst]; rfl
      rw [e]
      refine ⟨rfl, (hf 0 hd).1, one (hf 0 hd).1 fun q => ?_⟩
      rw [((hf 0 hd).2.2 q).1, leftStates_zero]
      split_ifs <;> simp
    | succ d ih =>
      intro hd
      obtain ⟨ik, ig, -⟩ := ih (by omega)
      have e : cut.leftDims.getD (d + 1) [] = truncate (full.leftDims.getD (d + 1) []) M
          (some (tensorProduct (cut.leftDims.getD d []) (basis.getD d []) none)) := by
        rw [cl, truncLeft_getD M _ basis _ hlt (by omega), htail]
      rw [e]
      refine truncate_keeps (hf (d + 1) hd).1 fun k hk => ?_
      have hc := good_count (hf (d + 1) hd).1 hk
      rw [((hf (d + 1) hd).2.2 k).1] at hc
      obtain ⟨s, hs, h1, h2⟩ := states_pass (by omega : d < basis.length) (lt_of_lt_of_le hc (min_le_left _ _)) (lt_of_lt_of_le hc (min_le_right _ _))
      rw [count_product ig.1]
      refine sum_pos_of_mem hs (good_count ig ?_)
      rw [ik]
      apply mem_of_count
      rw [((hf d (by omega)).2.2 _).1]
      exact lt_min h1 h2
  have right : ∀ k d, d + k = basis.length → (Dict.keys (cut.rightDims.getD d []) = Dict.keys (full.rightDims.getD d []) ∧ GoodBond (cut.rightDims.getD d []) ∧
        10 * nBonds (cut.rightDims.getD d []) ≤ 10 * M + 11 * (full.rightDims.getD d []).length) := by
    intro k
    induction k with
    | zero =>
      intro d hd
      have hd' : d = basis.length := by omega
      subst hd'
      have e : cut.rightDims.getD basis.length [] = full.rightDims.getD basis.length [] := by rw [cr, truncRight_end M _ _ lr]
      rw [e]
      refine ⟨rfl, (hf _ le_rfl).2.1, one (hf _ le_rfl).2.1 fun q => ?_⟩
      rw [((hf _ le_rfl).2.2 q).2, rightStates_end]
      split_ifs <;> simp
    | succ k ih =>
      intro d hd
      obtain ⟨ik, ig, -⟩ := ih (d + 1) (by omega)
      have hd' : d < basis.length := by omega
      have e : cut.rightDims.getD d [] = truncate (full.rightDims.getD d []) M
          (some (tensorProduct (negKeys (basis.getD d [])) (cut.rightDims.getD (d + 1) []) none)) := by
        rw [cr, truncRight_getD M basis _ lr hd']
      rw [e]
      refine truncate_keeps (hf d (by omega)).2.1 fun q hk => ?_
      have hc := good_count (hf d (by omega)).2.1 hk
      rw [((hf d (by omega)).2.2 q).2] at hc
      obtain ⟨s, hs, h1, h2⟩ := states_pass_right hd' (lt_of_lt_of_le hc (min_le_left _ _)) (lt_of_lt_of_le hc (min_le_right _ _))
      have hm : basis.getD d [] ∈ basis := by
        rw [List.getD_eq_getElem?_getD, List.getElem?_eq_getElem hd']
        exact List.getElem_mem hd'
      rw [count_product_neg ig.1 (hb _ hm).1]
      refine sum_pos_of_mem hs (good_count ig ?_)
      rw [ik]
      apply mem_of_count
      rw [((hf (d + 1) (by omega)).2.2 _).2]
      exact lt_min h1 h2
  refine ⟨?_, ?_, fun d hd => ⟨left d hd, right (basis.length - d) d (by omega)⟩⟩
  · rw [cl, List.length_cons, truncLeft_length _ _ _ _ hlt]
  · rw [cr, truncRight_length, lr]

example : (MpsInfo.truncated (MpsInfo.fci (0 : Int) 2 [[(0, 3), (1, 3)], [(0, 3), (1, 3)], [(0, 3), (1, 3)], [(0, 3), (1, 3)]]) 4).leftDims =
    [[(0, 1)], [(0, 3), (1, 3)], [(0, 2), (1, 3), (2, 2)], [(1, 3), (2, 3)], [(2, 1)]] := by decide +kernel

/-! ### States on the bonds -/

theorem bonds_ready {vacuum target : Q} {basis bonds : List (BondInfo Q)} (hlen : bonds.length = basis.length + 1)
    (hg : ∀ d, d ≤ basis.length → GoodBond (bonds.getD d [])) (hk : ∀ d, d ≤ basis.length → ∃ q, q ∈ Dict.keys (bonds.getD d []))
    (h0 : bonds.getD 0 [] = [(vacuum, 1)]) (hn : bonds.getD basis.length [] = [(target, 1)]) : StateBonds vacuum target basis bonds := by
  refine ⟨hlen, ?_, ?_, ?_⟩
  · rw [← h0]; cases bonds <;> rfl
  · rw [← hn, List.getLastD_eq_getLast?, List.getLast?_eq_getElem?, hlen, List.getD_eq_getElem?_getD]
    rfl
  · intro b hb
    obtain ⟨d, hd, rfl⟩ := List.getElem_of_mem hb
    have e : bonds.getD d [] = bonds[d] := by rw [List.getD_eq_getElem?_getD, List.getElem?_eq_getElem hd]; rfl
    refine ⟨e ▸ hg d (by omega), fun h => ?_⟩
    obtain ⟨q, hq⟩ := hk d (by omega)
    rw [e, h] at hq
    simp [Dict.keys] at hq

theorem path_label {vacuum target : Q} {basis : List (BondInfo Q)} (hr : Reachable vacuum target basis) {d : Nat} (hd : d ≤ basis.length) :
    ∃ q, 0 < (leftStates vacuum basis d q).length ∧ 0 < (rightStates target basis d q).length := by
  obtain ⟨x, hx, e⟩ := hr
  rw [← List.take_append_drop d basis] at hx
  obtain ⟨a, ha, b, hb, rfl⟩ := mem_legIndices_append hx
  refine ⟨vacuum + totalCharge a, List.length_pos_of_mem (mem_leftStates.2 ⟨ha, rfl⟩), List.length_pos_of_mem (mem_rightStates.2 ⟨hb, ?_⟩)⟩
  rw [← e, totalCharge_append, add_assoc]

theorem trunc_single (v : Q) (M : Nat) (r : BondInfo Q) (hg : GoodBond (truncate ([(v, 1)] : BondInfo Q) M (some r))) :
    truncate ([(v, 1)] : BondInfo Q) M (some r) = [(v, 1)] := by
  by_cases h : 1 > M
  · have : M = 0 := by omega
    subst this
    have e : truncate ([(v, 1)] : BondInfo Q) 0 (some r) = [(v, min 1 (Counter.count r v))] := by
      unfold truncate
      rw [nBonds_single, if_pos h]
      rfl
    rw [e] at hg ⊢
    have := hg.2 _ List.mem_cons_self
    simp only at this
    have e1 : min 1 (Counter.count r v) = 1 := by omega
    rw [e1]
  · exact (C07_fits _ M _ (by rw [nBonds_single]; omega)).1

/-- C68: when some configuration has the target charge, the full and the truncated bonds are bonds of a state from the vacuum to the target, without empty
bonds. -/
theorem C68_ready (vacuum target : Q) (basis : List (BondInfo Q)) (hb : ∀ b ∈ basis, GoodBond b) (hr : Reachable vacuum target basis) :
    StateBonds vacuum target basis (MpsInfo.fci vacuum target basis).leftDims ∧
    ∀ M, StateBonds vacuum target basis (MpsInfo.truncated (MpsInfo.fci vacuum target basis) M).leftDims := by
  obtain ⟨ll, -, hf⟩ := C68_fci vacuum target basis hb
  have keys : ∀ d, d ≤ basis.length → ∃ q, q ∈ Dict.keys ((MpsInfo.fci vacuum target basis).leftDims.getD d []) := by
    intro d hd
    obtain ⟨q, h1, h2⟩ := path_label hr hd
    exact ⟨q, mem_of_count (by rw [((hf d hd).2.2 q).1]; exact lt_min h1 h2)⟩
  have h0 : (MpsInfo.fci vacuum target basis).leftDims.getD 0 [] = [(vacuum, 1)] := by
    refine eq_single (hf 0 (Nat.zero_le _)).1 fun q => ?_
    rw [((hf 0 (Nat.zero_le _)).2.2 q).1, leftStates_zero]
    by_cases e : q = vacuum
    · subst e
      have := reachable_right hr
      simp only [if_true, List.length_cons, List.length_nil]
      omega
    · rw [if_neg e, if_neg fun h => e h.symm]
      simp
  have hn : (MpsInfo.fci vacuum target basis).leftDims.getD basis.length [] = [(target, 1)] := by
    refine eq_single (hf _ le_rfl).1 fun q => ?_
    rw [((hf _ le_rfl).2.2 q).1, rightStates_end]
    by_cases e : q = target
    · subst e
      have := reachable_left hr
      simp only [if_true, List.length_cons, List.length_nil]
      omega
    · rw [if_neg e, if_neg e]
      simp
  refine ⟨bonds_ready ll (fun d hd => (hf d hd).1) keys h0 hn, fun M => ?_⟩
  obtain ⟨cl, -, hc⟩ := C68_truncated vacuum target basis hb M
  have c0 : (MpsInfo.truncated (MpsInfo.fci vacuum target basis) M).leftDims.getD 0 [] = [(vacuum, 1)] := by
    rw [← h0]
    unfold MpsInfo.truncated
    simp only [List.getD_cons_zero]
    cases (MpsInfo.fci vacuum target basis).leftDims <;> rfl
  refine bonds_ready cl (fun d hd => (hc d hd).1.2.1) (fun d hd => ?_) c0 ?_
  · rw [(hc d hd).1.1]; exact keys d hd
  · have hk := (hc _ le_rfl).1
    by_cases hz : basis.length = 0
    · rw [hz] at hn ⊢
      rw [h0] at hn
      rw [c0, hn]
    · obtain ⟨m, hm⟩ : ∃ m, basis.length = m + 1 := ⟨basis.length - 1, by omega⟩
      have hlt : (MpsInfo.fci vacuum target basis).leftDims.tail.length = basis.length := by rw [List.length_tail, ll]; rfl
      have htail : (MpsInfo.fci vacuum target basis).leftDims.tail.getD m [] = (MpsInfo.fci vacuum target basis).leftDims.getD (m + 1) [] := by
        cases (MpsInfo.fci vacuum target basis).leftDims <;> rfl
      have e : (MpsInfo.truncated (MpsInfo.fci vacuum target basis) M).leftDims.getD (m + 1) [] = _ :=
        truncLeft_getD M ((MpsInfo.fci vacuum target basis).leftDims.headD []) basis _ hlt (by omega : m < basis.length)
      rw [htail, ← hm, hn] at e
      rw [hm] at hk e ⊢
      rw [e]
      rw [e] at hk
      exact trunc_single _ _ _ hk.2.1

/-- The bonds inside the state. -/
theorem StateBonds.split {vacuum target : Q} {basis bonds : List (BondInfo Q)} (h : StateBonds vacuum target basis bonds) (hne : basis ≠ []) :
    ∃ ls, bonds = [(vacuum, 1)] :: ls ++ [[(target, 1)]] ∧ ls.length + 1 = basis.length := by
  obtain ⟨hlen, h0, hn, -⟩ := h
  have hp : 0 < basis.length := List.length_pos_iff.2 hne
  obtain _ | ⟨b, bs⟩ := bonds
  · simp at hlen
  have hbs : bs ≠ [] := by
    rintro rfl
    simp only [List.length_cons, List.length_nil] at hlen
    omega
  refine ⟨bs.dropLast, ?_, ?_⟩
  · have e1 : b = [(vacuum, 1)] := h0
    have e2 : bs.getLast hbs = [(target, 1)] := by
      rw [← hn, List.getLastD_eq_getLast?, List.getLast?_cons, List.getLast?_eq_some_getLast hbs]
      rfl
    rw [← e1, ← e2, List.cons_append, List.dropLast_append_getLast hbs]
  · have : bs.length = basis.length := by simpa using hlen
    rw [List.length_dropLast]
    omega

theorem inner_split (v t : BondInfo Q) (ls : List (BondInfo Q)) : (v :: ls ++ [t]).tail.dropLast = ls := by
  simp

theorem sites_props {le : Q → Q → Bool} {f : Nat → List Q → List Nat → K} {basis : List (BondInfo Q)} {i : Nat} {l : BondInfo Q} {ls : List (BondInfo Q)}
    (hlen : ls.length = basis.length) (hw : ∀ b ∈ l :: ls ++ basis, Dict.WF b) {ts : List (SpT Q K)}
    (h : Mps.sites (fillSite le f) i basis (l :: ls) = some ts) :
    OnBonds (l :: ls) (basis.map fun b => [b]) ts ∧ ∀ T ∈ ts, UniqueLabels T ∧ Conserves [true, true, false] 0 T := by
  induction basis generalizing i l ls ts with
  | nil =>
    have : ls = [] := List.eq_nil_of_length_eq_zero hlen
    subst this
    have : ts = [] := by
      rw [Mps.sites] at h
      simpa using h.symm
    subst this
    exact ⟨trivial, by simp⟩
  | cons b bs ih =>
    obtain _ | ⟨r, rs⟩ := ls
    · simp at hlen
    obtain ⟨S, ts', hS, hts, rfl⟩ := sites_cons h
    obtain ⟨h1, h2⟩ := ih (by simpa using hlen) (fun c hc => hw c (by
      simp only [List.cons_append, List.mem_cons, List.mem_append] at hc ⊢
      tauto)) hts
    obtain ⟨c1, c2, c3⟩ := fill_props (legs := [l, b, r]) (by simp) (fun c hc => hw c (by
      simp only [List.cons_append, List.mem_cons, List.mem_append, List.not_mem_nil, or_false] at hc ⊢
      tauto)) hS (f i)
    refine ⟨⟨c1, h1⟩, fun T hT => ?_⟩
    rcases List.mem_cons.1 hT with rfl | hT
    · exact ⟨c2, c3⟩
    · exact h2 T hT

theorem fill_ampl [CommSemiring K] {le : Q → Q → Bool} {f : Nat → List Q → List Nat → K} {vacuum target : Q} {basis bonds : List (BondInfo Q)}
    (h : StateBonds vacuum target basis bonds) (hne : basis ≠ []) (hb : ∀ b ∈ basis, GoodBond b) (hbe : ∀ b ∈ basis, b ≠ []) :
    ∃ ts, Mps.sites (fillSite le f) 0 basis bonds = some ts ∧ OnBonds bonds (basis.map fun b => [b]) ts ∧
      (∀ T ∈ ts, UniqueLabels T ∧ Conserves [true, true, false] 0 T) ∧ ∀ x ∈ legIndices basis,
      confAmpl vacuum target bonds ts x = pathSum f 0 bonds.tail (vacuum, 0) x := by
  obtain ⟨ls, e, hl⟩ := h.split hne
  have hg := h.good
  rw [e] at hg
  rw [e]
  obtain ⟨ts, hts⟩ := sites_some (le := le) (f := f) (basis := basis) 0 (l := [(vacuum, 1)]) (ls := ls ++ [[(target, 1)]]) (by simp [hl]) (by
    intro b hb'
    rw [List.mem_append] at hb'
    rcases hb' with h1 | h1
    · exact (hg b h1).2
    · exact hbe b h1)
  obtain ⟨p1, p2⟩ := sites_props (by simp [hl]) (fun b hb' => by
    rw [List.mem_append] at hb'
    rcases hb' with h1 | h1
    · exact (hg b h1).1.1
    · exact (hb b h1).1) hts
  refine ⟨ts, hts, p1, p2, fun x hx => ?_⟩
  unfold confAmpl
  rw [inner_split]
  exact ampl_path hne hl (fun b hb' => by
    rw [List.mem_append] at hb'
    rcases hb' with h1 | h1
    · exact (hg b (by simp only [List.cons_append, List.mem_cons, List.mem_append] at h1 ⊢; tauto)).1.1
    · exact (hb b h1).1) hts (by simp [legBasis]) hx

theorem conf_length {basis : List (BondInfo Q)} {x : List (Q × Nat)} (h : x ∈ legIndices basis) : x.length = basis.length :=
  (mem_legIndices.1 h).1

/-- C68: `MPS.ones` on such bonds lives on the bonds, conserves the charge, and gives every configuration with the target charge the number of paths through
the bonds as amplitude: the product over the inner bonds of the number of basis vectors with the charge reached there.  Other configurations have amplitude
zero. -/
theorem C68_ones [CommSemiring K] (le : Q → Q → Bool) (info : MpsInfo Q) (h : StateBonds info.vacuum info.target info.basis info.leftDims)
    (hne : info.basis ≠ []) (hb : ∀ b ∈ info.basis, GoodBond b ∧ b ≠ []) :
    ∃ m : Mps Q K, Mps.ones le info = some m ∧ m.const = 0 ∧ OnBonds info.leftDims (info.basis.map fun b => [b]) m.tensors ∧
      (∀ T ∈ m.tensors, UniqueLabels T ∧ Conserves [true, true, false] 0 T) ∧ ∀ x ∈ legIndices info.basis,
      confAmpl info.vacuum info.target info.leftDims m.tensors x =
        if info.vacuum + totalCharge x = info.target then
          (((List.range (info.basis.length - 1)).map fun d =>
            Counter.count (info.leftDims.getD (d + 1) []) (info.vacuum + totalCharge (x.take (d + 1)))).prod : Nat)
        else 0 := by
  obtain ⟨ts, hts, ho, hc, ha⟩ := fill_ampl (K := K) (le := le) (f := fun _ _ _ => 1) h hne (fun b hb' => (hb b hb').1) fun b hb' => (hb b hb').2
  refine ⟨⟨ts, 0⟩, ?_, rfl, ho, hc, fun x hx => ?_⟩
  · rw [ones_fill, hts]; rfl
  obtain ⟨ls, e, hl⟩ := h.split hne
  rw [ha x hx]
  have ht : info.leftDims.tail = ls ++ [[(info.target, 1)]] := by rw [e]; rfl
  have hxl := conf_length hx
  rw [ht]
  split_ifs with hq
  · rw [pathSum_one (K := K) 0 ls info.target (info.vacuum, 0) x (by omega) hq]
    have : info.basis.length - 1 = ls.length := by omega
    rw [this]
    congr 2
    apply List.map_congr_left
    intro d hd
    have hd' := List.mem_range.1 hd
    rw [e]
    congr 1
    simp [List.getElem?_append_left hd']
  · rw [Nat.cast_zero]
    exact pathSum_charge (K := K) _ 0 ls info.target (info.vacuum, 0) x (by omega) hq

/-- C68: `MPS.random` on such bonds, whatever the numbers drawn, lives on the bonds, conserves the charge, and gives every configuration without the target
charge the amplitude zero. -/
theorem C68_random [CommRing K] (le : Q → Q → Bool) (info : MpsInfo Q) (h : StateBonds info.vacuum info.target info.basis info.leftDims)
    (hne : info.basis ≠ []) (hb : ∀ b ∈ info.basis, GoodBond b ∧ b ≠ []) (low high : K) (rnd : Nat → List Q → List Nat → K) :
    ∃ m : Mps Q K, Mps.random le info low high rnd = some m ∧ m.const = 0 ∧ OnBonds info.leftDims (info.basis.map fun b => [b]) m.tensors ∧
      (∀ T ∈ m.tensors, UniqueLabels T ∧ Conserves [true, true, false] 0 T) ∧ ∀ x ∈ legIndices info.basis,
      info.vacuum + totalCharge x ≠ info.target → confAmpl info.vacuum info.target info.leftDims m.tensors x = 0 := by
  obtain ⟨ts, hts, ho, hc, ha⟩ := fill_ampl (K := K) (le := le) (f := fun i qs ix => rnd i qs ix * (high - low) + low) h hne
    (fun b hb' => (hb b hb').1) fun b hb' => (hb b hb').2
  refine ⟨⟨ts, 0⟩, ?_, rfl, ho, hc, fun x hx hq => ?_⟩
  · rw [random_fill, hts]; rfl
  obtain ⟨ls, e, hl⟩ := h.split hne
  rw [ha x hx]
  have ht : info.leftDims.tail = ls ++ [[(info.target, 1)]] := by rw [e]; rfl
  have hxl := conf_length hx
  rw [ht]
  exact pathSum_charge (K := K) _ 0 ls info.target (info.vacuum, 0) x (by omega) hq

/-- C68: on the full bonds every function of the configurations with the target charge is the amplitude function of `MPS.random` for suitable numbers drawn.
-/
theorem C68_exact [Field K] (le : Q → Q → Bool) (vacuum target : Q) (basis : List (BondInfo Q)) (hne : basis ≠ [])
    (hb : ∀ b ∈ basis, GoodBond b ∧ b ≠ []) (hr : Reachable vacuum target basis) (ψ : List (Q × Nat) → K) :
    ∃ rnd, ∃ m : Mps Q K, Mps.random le (MpsInfo.fci vacuum target basis) 0 1 rnd = some m ∧ ∀ x ∈ legIndices basis,
      confAmpl vacuum target (MpsInfo.fci vacuum target basis).leftDims m.tensors x = if vacuum + totalCharge x = target then ψ x else 0 := by
  have hg : ∀ b ∈ basis, GoodBond b := fun b h => (hb b h).1
  obtain ⟨w, coef, h0, h1, hstep⟩ := exact_family hne hr ψ
  have hs := (C68_ready vacuum target basis hg hr).1
  obtain ⟨ll, -, hf⟩ := C68_fci vacuum target basis hg
  set rnd : Nat → List Q → List Nat → K := fun d qs ix => coef d (qs.getD 0 0) (ix.getD 0 0) (qs.getD 1 0, ix.getD 1 0) (ix.getD 2 0) with hrnd
  obtain ⟨ts, hts, -, -, ha⟩ := fill_ampl (K := K) (le := le) (f := rnd) hs hne hg fun b h => (hb b h).2
  refine ⟨rnd, ⟨ts, 0⟩, ?_, fun x hx => ?_⟩
  · rw [random_fill]
    have e : (fun (i : Nat) (qs : List Q) (ix : List Nat) => rnd i qs ix * ((1 : K) - 0) + 0) = rnd := by
      funext i qs ix
      ring
    rw [e]
    exact congrArg _ hts
  · rw [ha x hx]
    have ht : (MpsInfo.fci vacuum target basis).leftDims.tail = (MpsInfo.fci vacuum target basis).leftDims.drop (0 + 1) := by simp
    rw [ht, exact_path ll (fun d hd q => ((hf d hd).2.2 q).1) h1 hstep basis.length 0 (by omega) vacuum 0 ?_ x (by simpa using hx), h0, contRow]
    · by_cases hq : vacuum + totalCharge x = target
      · rw [if_pos hq, if_pos (mem_rightStates.2 ⟨by simpa using hx, hq⟩)]
        rfl
      · rw [if_neg hq, if_neg fun h => hq (mem_rightStates.1 h).2]
    · rw [fullCount, leftStates_zero, if_pos rfl]
      have := reachable_right hr
      simp only [List.length_cons, List.length_nil]
      omega

/-- C68: when no configuration has the target charge, every bond is empty and no state can be made. -/
theorem C68_unreachable [CommRing K] (le : Q → Q → Bool) (vacuum target : Q) (basis : List (BondInfo Q)) (hne : basis ≠ [])
    (hb : ∀ b ∈ basis, GoodBond b) (hr : ¬ Reachable vacuum target basis) :
    (∀ d, d ≤ basis.length → (MpsInfo.fci vacuum target basis).leftDims.getD d [] = []) ∧
    (Mps.ones le (MpsInfo.fci vacuum target basis) : Option (Mps Q K)) = none ∧
    ∀ (low high : K) rnd, Mps.random le (MpsInfo.fci vacuum target basis) low high rnd = none := by
  obtain ⟨ll, -, hf⟩ := C68_fci vacuum target basis hb
  have hz : ∀ d, d ≤ basis.length → (MpsInfo.fci vacuum target basis).leftDims.getD d [] = [] := by
    intro d hd
    refine eq_nil_of_count (hf d hd).1 fun q => ?_
    rw [((hf d hd).2.2 q).1]
    by_contra hc
    have hc : 0 < min (leftStates vacuum basis d q).length (rightStates target basis d q).length := Nat.pos_of_ne_zero hc
    obtain ⟨a, ha⟩ := List.exists_mem_of_length_pos (lt_of_lt_of_le hc (min_le_left _ _))
    obtain ⟨b, hb'⟩ := List.exists_mem_of_length_pos (lt_of_lt_of_le hc (min_le_right _ _))
    rw [mem_leftStates] at ha
    rw [mem_rightStates] at hb'
    refine hr ⟨a ++ b, ?_, ?_⟩
    · have := mem_legIndices_join ha.1 hb'.1
      rwa [List.take_append_drop] at this
    · rw [totalCharge_append, ← add_assoc, ha.2, hb'.2]
  have none_sites : ∀ f : Nat → List Q → List Nat → K,
      Mps.sites (fillSite le f) 0 basis (MpsInfo.fci vacuum target basis).leftDims = none := by
    intro f
    have h0 := hz 0 (Nat.zero_le _)
    generalize hL : (MpsInfo.fci vacuum target basis).leftDims = L at *
    obtain _ | ⟨b, bs⟩ := basis
    · exact absurd rfl hne
    obtain _ | ⟨l, _ | ⟨r, rs⟩⟩ := L
    · simp at ll
    · simp at ll
    · have : l = [] := h0
      subst this
      rw [Mps.sites, fillSite, SpT.skeleton, if_pos (by simp)]
      rfl
  refine ⟨hz, ?_, fun low high rnd => ?_⟩
  · rw [ones_fill]
    exact congrArg _ (none_sites _)
  · rw [random_fill]
    exact congrArg _ (none_sites _)

/-- Three sites with one particle in all. -/
example : Reachable (0 : Int) 1 [[(0, 1), (1, 1)], [(0, 1), (1, 1)], [(0, 2), (1, 1)]] := ⟨[(0, 0), (1, 0), (0, 1)], by decide +kernel, by decide +kernel⟩

/-- Two particles: the configuration with one of them at each end passes two bonds with one, and two, basis vectors. -/
example : ((Mps.ones (K := Rat) (fun a b => decide (a ≤ b)) (MpsInfo.fci (0 : Int) 1 [[(0, 2), (1, 1)], [(0, 2), (1, 1)], [(0, 2), (1, 1)]])).map fun m =>
    confAmpl 0 1 (MpsInfo.fci (0 : Int) 1 [[(0, 2), (1, 1)], [(0, 2), (1, 1)], [(0, 2), (1, 1)]]).leftDims m.tensors [(0, 1), (0, 0), (1, 0)]) = some 2 := by
  decide +kernel

end
end Verif
