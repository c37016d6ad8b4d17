import Verif.Proof.ChainOverlap
import Verif.Proof.MpeCanonRun
import Verif.Thm.MpeSweep

/-! Inner products of states that agree outside a window, where all sites are isometries. -/

set_option linter.unusedSectionVars false

namespace Verif
section
variable {Q K : Type} [DecidableEq Q] [AddCommGroup Q] [CommRing K] [StarRing K]

theorem innerProduct_chain {l r : BondInfo Q} (hr : Dict.WF r) {phys : List (List (BondInfo Q))} {ts us : List (SpT Q K)} {X Y : List (BondInfo Q)}
    (h : OnBonds (l :: X ++ [r]) phys ts) (h' : OnBonds (l :: Y ++ [r]) phys us) :
    innerProduct l r phys (ampl ts X) (ampl us Y) = chainIp l r phys (X ++ [r]) ts (Y ++ [r]) us := by
  unfold innerProduct chainIp ip
  apply sum_map_congr'
  intro x _
  rw [cells_sum]
  apply sum_map_congr'
  intro ps hps
  apply sum_map_congr'
  intro y hy
  have hl : ps.length = phys.length := by
    have := ((mem_cart _ _).1 hps).length_eq
    simpa using this.symm
  simp only [chain_eq_ampl hr h hl x hy, chain_eq_ampl hr h' hl x hy]

theorem onBonds_split (k : Nat) : ∀ {l : BondInfo Q} {B : List (BondInfo Q)} {phys : List (List (BondInfo Q))} {ts : List (SpT Q K)}, OnBonds (l :: B) phys ts →
    k ≤ ts.length → OnBonds (l :: B.take k) (phys.take k) (ts.take k) ∧ OnBonds ((l :: B).getD k [] :: B.drop k) (phys.drop k) (ts.drop k) := by
  induction k with
  | zero =>
    intro l B phys ts h hk
    simp only [List.take_zero, List.drop_zero, List.getD_cons_zero]
    exact ⟨trivial, h⟩
  | succ k ih =>
    intro l B phys ts h hk
    rcases B with _ | ⟨b, B⟩ <;> rcases phys with _ | ⟨ph, phys⟩ <;> rcases ts with _ | ⟨T, ts⟩ <;> try exact h.elim
    · simp at hk
    · obtain ⟨h1, h2⟩ := ih h.2 (by simpa using hk)
      exact ⟨⟨h.1, h1⟩, by simpa using h2⟩

theorem onBonds_len : ∀ {B : List (BondInfo Q)} {l : BondInfo Q} {phys : List (List (BondInfo Q))} {ts : List (SpT Q K)}, OnBonds (l :: B) phys ts →
    B.length = ts.length ∧ phys.length = ts.length
  | [], l, phys, ts, h => by
    rcases phys with _ | ⟨ph, phys⟩ <;> rcases ts with _ | ⟨T, ts⟩ <;> first | exact h.elim | simp
  | b :: B, l, phys, ts, h => by
    rcases phys with _ | ⟨ph, phys⟩ <;> rcases ts with _ | ⟨T, ts⟩ <;> try exact h.elim
    have := onBonds_len h.2
    simpa using this

theorem rightChain_index (ts : List (SpT Q K)) : ∀ {l : BondInfo Q} {B : List (BondInfo Q)} {phys : List (List (BondInfo Q))},
    (∀ i < ts.length, RightIsometric ((l :: B).getD i []) (phys.getD i [] ++ [B.getD i []]) (ts.getD i [])) → RightChain (l :: B) phys ts := by
  induction ts with
  | nil => intro l B phys h; cases B <;> cases phys <;> trivial
  | cons T ts ih =>
    intro l B phys h
    rcases phys with _ | ⟨ph, phys⟩
    · cases B <;> trivial
    rcases B with _ | ⟨b, B⟩
    · trivial
    refine ⟨by simpa using h 0 (by simp), ih fun i hi => ?_⟩
    have := h (i + 1) (by simpa using hi)
    simpa only [List.getD_cons_succ] using this

theorem getD_take {α : Type} {L : List α} {k i : Nat} {d : α} (h : i < k) : (L.take k).getD i d = L.getD i d := by
  simp [List.getD_eq_getElem?_getD, List.getElem?_take, h]

theorem getD_drop' {α : Type} {L : List α} {k i : Nat} {d : α} : (L.drop k).getD i d = L.getD (k + i) d := by
  simp [List.getD_eq_getElem?_getD]

theorem ext_getD {α : Type} {L M : List α} {d : α} (hl : L.length = M.length) (h : ∀ i < L.length, L.getD i d = M.getD i d) : L = M := by
  apply List.ext_getElem hl
  intro i h1 h2
  have := h i h1
  simpa [List.getD_eq_getElem?_getD, h1, h2] using this

theorem getLast_snoc {α : Type} (a : α) (L : List α) (b : α) : (a :: (L ++ [b])).getLast? = some b := by
  rw [← List.cons_append, List.getLast?_concat]

theorem take_drop_split {α : Type} (L : List α) {l r : Nat} (hlr : l ≤ r) : L = L.take l ++ ((L.drop l).take (r - l) ++ L.drop r) := by
  have e1 : (L.drop l).drop (r - l) = L.drop r := by rw [List.drop_drop]; congr 1; omega
  rw [← e1, List.take_append_drop, List.take_append_drop]

/-- Two states that agree with `k` outside the window. -/
theorem innerProduct_window {e f : BondInfo Q} (gf : GoodBond f) {phys : List (List (BondInfo Q))} {n : Nat} {Z : List (BondInfo Q)} {k : Nat → SpT Q K}
    {l r : Nat} (hlr : l < r) (hr : r ≤ n) (hF : FitsOn e f phys n Z k) (hiso : IsometricOutside e f phys n Z l r k) (ge : GoodBond e)
    {k' k'' : Nat → SpT Q K} {Z' Z'' : List (BondInfo Q)} (h' : ∀ i, i < l ∨ r ≤ i → k' i = k i ∧ k'' i = k i) (z' : SameOutside l r Z Z') (z'' : SameOutside l r Z Z'')
    (on' : OnBonds (e :: Z' ++ [f]) phys ((List.range n).map k')) (on'' : OnBonds (e :: Z'' ++ [f]) phys ((List.range n).map k'')) :
    OnBonds ((e :: Z).getD l [] :: (Z'.drop l).take (r - 1 - l) ++ [(Z ++ [f]).getD (r - 1) []]) ((phys.drop l).take (r - l)) ((List.range' l (r - l)).map k') ∧
    innerProduct e f phys (ampl ((List.range n).map k') Z') (ampl ((List.range n).map k'') Z'') =
      innerProduct ((e :: Z).getD l []) ((Z ++ [f]).getD (r - 1) []) ((phys.drop l).take (r - l))
        (ampl ((List.range' l (r - l)).map k') ((Z'.drop l).take (r - 1 - l))) (ampl ((List.range' l (r - l)).map k'') ((Z''.drop l).take (r - 1 - l))) := by
  obtain ⟨lz, lp⟩ := hF.lengths
  have lz' := on'.lengths.1
  have lz'' := on''.lengths.1
  simp only [List.length_map, List.length_range] at lz' lz''
  obtain ⟨-, -, o3⟩ := getD_outside (e := e) (f := f) lz lz'.symm z' hr
  obtain ⟨-, -, p3⟩ := getD_outside (e := e) (f := f) lz lz''.symm z'' hr
  -- bonds
  have gW : ∀ b ∈ e :: (Z ++ [f]), Dict.WF b := by
    intro b hb
    simp only [List.mem_cons, List.mem_append, List.not_mem_nil, or_false] at hb
    rcases hb with rfl | hb | rfl
    · exact ge.1
    · exact (hF.good b hb).1
    · exact gf.1
  have hmem : ∀ i ≤ n, (e :: (Z ++ [f])).getD i [] ∈ e :: (Z ++ [f]) := by
    intro i hi
    rw [List.getD_eq_getElem _ _ (by simp; omega)]
    exact List.getElem_mem _
  have ecomb : ∀ i, i < n → (e :: (Z ++ [f])).getD i [] = (e :: Z).getD i [] := by
    intro i hi
    cases i with
    | zero => rfl
    | succ i => rw [List.getD_cons_succ, List.getD_cons_succ, List.getD_append _ _ _ _ (by omega)]
  have bondsOf : ∀ {X : List (BondInfo Q)}, X.length + 1 = n → (∀ i, i < l ∨ r ≤ i + 1 → (X ++ [f]).getD i [] = (Z ++ [f]).getD i []) →
      X ++ [f] = (Z ++ [f]).take l ++ (((X.drop l).take (r - 1 - l) ++ [(Z ++ [f]).getD (r - 1) []]) ++ (Z ++ [f]).drop r) := by
    intro X hX ho
    have e1 := take_drop_split (X ++ [f]) (le_of_lt hlr)
    have e2 : (X ++ [f]).take l = (Z ++ [f]).take l := by
      refine ext_getD (d := []) (by simp; omega) fun i hi => ?_
      have : i < l := by simp at hi; omega
      rw [getD_take this, getD_take this, ho i (Or.inl this)]
    have e3 : (X ++ [f]).drop r = (Z ++ [f]).drop r := by
      refine ext_getD (d := []) (by simp; omega) fun i hi => ?_
      rw [getD_drop', getD_drop', ho _ (Or.inr (by omega))]
    have e4 : ((X ++ [f]).drop l).take (r - l) = (X.drop l).take (r - 1 - l) ++ [(Z ++ [f]).getD (r - 1) []] := by
      refine ext_getD (d := []) (by simp; omega) fun i hi => ?_
      have hi' : i < r - l := by simp at hi; omega
      rw [getD_take hi', getD_drop']
      by_cases hc : i < r - 1 - l
      · rw [List.getD_append ((X.drop l).take (r - 1 - l)) _ _ _ (by simp; omega), getD_take hc, getD_drop', List.getD_append _ _ _ _ (by omega)]
      · rw [List.getD_append_right ((X.drop l).take (r - 1 - l)) _ _ _ (by simp; omega), show i - ((X.drop l).take (r - 1 - l)).length = 0 by simp; omega, List.getD_cons_zero,
          show l + i = r - 1 by omega, ho _ (Or.inr (by omega))]
    rw [e2, e3, e4] at e1
    exact e1
  have b' := bondsOf lz'.symm o3
  have b'' := bondsOf lz''.symm p3
  -- tensors
  have tensorsOf : ∀ {g : Nat → SpT Q K}, (∀ i, i < l ∨ r ≤ i → g i = k i) →
      (List.range n).map g = ((List.range n).map k).take l ++ ((List.range' l (r - l)).map g ++ ((List.range n).map k).drop r) := by
    intro g hg
    have e1 := take_drop_split ((List.range n).map g) (le_of_lt hlr)
    have e2 : ((List.range n).map g).take l = ((List.range n).map k).take l := by
      apply List.ext_getElem (by simp)
      intro i h1 h2
      simp only [List.getElem_take, List.getElem_map, List.getElem_range]
      exact hg i (Or.inl (by simp at h1; omega))
    have e3 : ((List.range n).map g).drop r = ((List.range n).map k).drop r := by
      apply List.ext_getElem (by simp)
      intro i h1 h2
      simp only [List.getElem_drop, List.getElem_map, List.getElem_range]
      exact hg _ (Or.inr (by omega))
    rw [e2, e3, range_map_window _ _ _ _ hr] at e1
    exact e1
  have t' := tensorsOf (g := k') fun i hi => (h' i hi).1
  have t'' := tensorsOf (g := k'') fun i hi => (h' i hi).2
  have tp := take_drop_split phys (le_of_lt hlr)
  -- the window
  have winOf : ∀ {X : List (BondInfo Q)} {g : Nat → SpT Q K}, X.length + 1 = n →
      X ++ [f] = (Z ++ [f]).take l ++ (((X.drop l).take (r - 1 - l) ++ [(Z ++ [f]).getD (r - 1) []]) ++ (Z ++ [f]).drop r) →
      OnBonds (e :: X ++ [f]) phys ((List.range n).map g) →
      OnBonds ((e :: Z).getD l [] :: (X.drop l).take (r - 1 - l) ++ [(Z ++ [f]).getD (r - 1) []]) ((phys.drop l).take (r - l)) ((List.range' l (r - l)).map g) := by
    intro X g hX hb hon
    have hon1 := (onBonds_split l (l := e) (B := X ++ [f]) hon (by simp; omega)).2
    have hon2 := (onBonds_split (r - l) hon1 (by simp; omega)).1
    rw [range_map_window _ _ _ _ hr] at hon2
    have ew : ((X ++ [f]).drop l).take (r - l) = (X.drop l).take (r - 1 - l) ++ [(Z ++ [f]).getD (r - 1) []] := by
      rw [hb, List.drop_left' (by simp; omega), List.take_left' (by simp; omega)]
    have eb : (e :: (X ++ [f])).getD l [] = (e :: Z).getD l [] := by
      rw [hb, ← ecomb l (by omega)]
      cases l with
      | zero => rfl
      | succ l => rw [List.getD_cons_succ, List.getD_cons_succ, List.getD_append _ _ _ _ (by simp; omega), getD_take (by omega)]
    rw [ew, eb] at hon2
    exact hon2
  have w' := winOf lz'.symm b' on'
  have w'' := winOf lz''.symm b'' on''
  refine ⟨w', ?_⟩
  have gr : Dict.WF ((Z ++ [f]).getD (r - 1) []) := gW _ (by
    have := hmem r hr
    rwa [show r = (r - 1) + 1 by omega, List.getD_cons_succ] at this)
  rw [innerProduct_chain gf.1 on' on'', innerProduct_chain gr w' w'']
  -- the right end
  have hC : Ortho (cells (phys.drop r) f) (legBasis ((Z ++ [f]).getD (r - 1) [])) fun z j => chain (((List.range n).map k).drop r) ((Z ++ [f]).drop r) z j.1 j.2 := by
    have eb : (e :: (Z ++ [f])).getD r [] = (Z ++ [f]).getD (r - 1) [] := by
      rw [show r = (r - 1) + 1 by omega, List.getD_cons_succ]; rfl
    have hon2 := (onBonds_split r (l := e) (B := Z ++ [f]) hF.on (by simpa using hr)).2
    rw [eb] at hon2
    have ed : (Z ++ [f]).getD (r - 1) [] :: (Z ++ [f]).drop r = (Z ++ [f]).drop (r - 1) := by
      rw [List.getD_eq_getElem _ _ (by simp; omega), List.drop_eq_getElem_cons (i := r - 1) (by simp; omega)]
      congr 2
      omega
    refine rightChain_ortho ?_ hon2 ?_ (rightChain_index _ fun i hi => ?_)
    · rw [ed, List.getLast?_drop]
      simp
      omega
    · intro b hb
      rw [ed] at hb
      exact gW b (List.mem_cons_of_mem _ (List.mem_of_mem_drop hb))
    · have hi' : r + i < n := by simp at hi; omega
      have h2 := hiso.right (r + i) (by omega) hi'
      rw [ed, getD_drop', getD_drop', getD_drop', getD_drop', getD_range_map k hi']
      rw [show (e :: Z).getD (r + i) [] = (Z ++ [f]).getD (r - 1 + i) [] by
        rw [show r + i = (r - 1 + i) + 1 by omega, List.getD_cons_succ, List.getD_append _ _ _ _ (by omega)]] at h2
      exact h2
  -- the left end
  have hA : ∀ i < (((List.range n).map k).take l).length, LeftIsometric ((e :: (Z ++ [f]).take l).getD i [] :: (phys.take l).getD i [])
      (((Z ++ [f]).take l).getD i []) ((((List.range n).map k).take l).getD i []) := by
    intro i hi
    have hi' : i < l := by simp at hi; omega
    rw [getD_take hi', getD_take hi', getD_take hi', getD_range_map k (by omega)]
    have := hiso.left i hi'
    rw [show (e :: (Z ++ [f]).take l).getD i [] = (e :: Z).getD i [] by
      cases i with
      | zero => rfl
      | succ i => rw [List.getD_cons_succ, List.getD_cons_succ, getD_take (by omega), List.getD_append _ _ _ _ (by omega)]]
    exact this
  have hlen : (((List.range n).map k).take l).length = l := by simp; omega
  rw [b', b'', t', t'']
  conv_lhs => rw [tp]
  rw [chainIp_left _ e _ _ (by simp; omega) (by simp; omega) (fun b hb => gW b (List.mem_cons_of_mem _ (List.mem_of_mem_take hb))) hA, hlen]
  have eb : (e :: (Z ++ [f]).take l).getD l [] = (e :: Z).getD l [] := by
    cases l with
    | zero => rfl
    | succ l => rw [List.getD_cons_succ, List.getD_cons_succ, getD_take (by omega), List.getD_append _ _ _ _ (by omega)]
  rw [eb]
  unfold chainIp
  refine sum_map_congr' _ _ _ fun x hx => ?_
  exact ip_right gr hC _ _ _ _ _ _ _ w' w'' (getLast_snoc _ _ _) (getLast_snoc _ _ _) x hx x hx

end
end Verif
