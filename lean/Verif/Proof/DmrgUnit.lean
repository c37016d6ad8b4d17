import Verif.Spec.DmrgStep
import Verif.Thm.MpeCanon
import Verif.Proof.Ladder

/-! Basis vectors of a window, as tensors of one or two sites. -/

set_option linter.unusedSectionVars false

namespace Verif
section
variable {Q K : Type} [DecidableEq Q] [AddCommGroup Q] [CommRing K] [StarRing K]

/-- The tensor whose only component is 1 at `x`. -/
def unitT (legs : List (BondInfo Q)) (x : List (Q × Nat)) : SpT Q K :=
  [(x.map Prod.fst, ⟨List.zipWith (fun b p => Counter.count b p.1) legs x, fun j => if j = x.map Prod.snd then 1 else 0⟩)]

theorem unit_shape : ∀ {legs : List (BondInfo Q)} {x : List (Q × Nat)}, (∀ b ∈ legs, Dict.WF b) → x ∈ legIndices legs →
    IsCombination legs (x.map Prod.fst) (List.zipWith (fun b p => Counter.count b p.1) legs x) ∧
      inBox (List.zipWith (fun b p => Counter.count b p.1) legs x) (x.map Prod.snd) = true := by
  intro legs
  induction legs with
  | nil =>
    intro x _ hx
    have : x = [] := by simpa [legIndices, cart] using hx
    subst this
    exact ⟨.nil, rfl⟩
  | cons b legs ih =>
    intro x hw hx
    have hx' := (mem_cart _ _).1 hx
    rcases x with _ | ⟨p, x⟩
    · cases hx'
    rw [List.map_cons] at hx'
    obtain ⟨h1, h2⟩ := List.forall₂_cons.1 hx'
    obtain ⟨i1, i2⟩ := ih (x := x) (fun c hc => hw c (by simp [hc])) ((mem_cart _ _).2 h2)
    have hc := (mem_legBasis (hw b (by simp))).1 h1
    refine ⟨?_, ?_⟩
    · rw [List.map_cons, List.zipWith_cons_cons]
      refine .cons ?_ i1
      unfold Counter.count at hc ⊢
      cases h : Dict.get? b p.1 with
      | none => rw [h] at hc; simp at hc
      | some d => rfl
    · rw [List.map_cons, List.zipWith_cons_cons, inBox, i2, Bool.and_true]
      simpa using hc

theorem unitT_conforms {legs : List (BondInfo Q)} {x : List (Q × Nat)} (hw : ∀ b ∈ legs, Dict.WF b) (hx : x ∈ legIndices legs) : Conforms legs (unitT (K := K) legs x) := by
  intro b hb
  rw [List.mem_singleton.1 hb]
  exact (unit_shape hw hx).1

theorem unitT_entry {legs : List (BondInfo Q)} {x : List (Q × Nat)} (hw : ∀ b ∈ legs, Dict.WF b) (hx : x ∈ legIndices legs) (y : List (Q × Nat)) :
    entry (unitT (K := K) legs x) y = if y = x then 1 else 0 := by
  unfold entry unitT blockEntry
  simp only [List.map_cons, List.map_nil, List.sum_cons, List.sum_nil, add_zero]
  by_cases h : y = x
  · subst h
    rw [if_pos ⟨rfl, (unit_shape hw hx).2⟩, if_pos rfl, if_pos rfl]
  · rw [if_neg h]
    split
    · rename_i hc
      rw [if_neg]
      intro h2
      apply h
      have h3 : y.unzip = x.unzip := by
        rw [List.unzip_eq_map, List.unzip_eq_map, hc.1, h2]
      have := congrArg (fun p => List.zip p.1 p.2) h3
      rwa [List.zip_unzip, List.zip_unzip] at this
    · rfl

theorem unitT_even {isF : Q → Bool} (legs : List (BondInfo Q)) {x : List (Q × Nat)} (h : fermParity isF (x.map Prod.fst) = false) :
    EvenBlocks isF (unitT (K := K) legs x) := by
  intro b hb
  rw [List.mem_singleton.1 hb]
  exact h

theorem unitT_unique (legs : List (BondInfo Q)) (x : List (Q × Nat)) : UniqueLabels (unitT (K := K) legs x) := by
  simp [UniqueLabels, unitT]

theorem unitT_charge (legs : List (BondInfo Q)) (x : List (Q × Nat)) (n : Nat) : HasCharge n (unitT (K := K) legs x) := by
  refine ⟨List.replicate n true, signedSum (List.replicate n true) (x.map Prod.fst), by simp, ?_⟩
  intro b hb
  rw [List.mem_singleton.1 hb]

/-- Tensors live on bonds, site by site. -/
theorem onBonds_index : ∀ {ts : List (SpT Q K)} {l : BondInfo Q} {B : List (BondInfo Q)} {phys : List (List (BondInfo Q))},
    OnBonds (l :: B) phys ts ↔ B.length = ts.length ∧ phys.length = ts.length ∧
      ∀ i < ts.length, Conforms ((l :: B).getD i [] :: phys.getD i [] ++ [B.getD i []]) (ts.getD i []) := by
  intro ts
  induction ts with
  | nil =>
    intro l B phys
    rcases B with _ | ⟨b, B⟩ <;> rcases phys with _ | ⟨ph, phys⟩ <;> simp [OnBonds]
  | cons T ts ih =>
    intro l B phys
    rcases B with _ | ⟨b, B⟩
    · simp [OnBonds]
    rcases phys with _ | ⟨ph, phys⟩
    · simp [OnBonds]
    rw [OnBonds, ih]
    constructor
    · rintro ⟨h1, h2, h3, h4⟩
      refine ⟨by simp [h2], by simp [h3], fun i hi => ?_⟩
      cases i with
      | zero => simpa using h1
      | succ i => simpa only [List.getD_cons_succ] using h4 i (by simpa using hi)
    · rintro ⟨h2, h3, h4⟩
      refine ⟨by simpa using h4 0 (by simp), by simpa using h2, by simpa using h3, fun i hi => ?_⟩
      have := h4 (i + 1) (by simpa using hi)
      simpa only [List.getD_cons_succ] using this

theorem fitsOn_site {e f : BondInfo Q} {phys : List (List (BondInfo Q))} {n : Nat} {Z : List (BondInfo Q)} {k : Nat → SpT Q K} (h : FitsOn e f phys n Z k) {i : Nat}
    (hi : i < n) : Conforms ((e :: Z).getD i [] :: phys.getD i [] ++ [(Z ++ [f]).getD i []]) (k i) := by
  have h1 := (onBonds_index.1 (show OnBonds (e :: (Z ++ [f])) phys ((List.range n).map k) from h.on)).2.2 i (by simpa using hi)
  obtain ⟨hz, -⟩ := h.lengths
  rw [getD_range_map k hi] at h1
  have : (e :: (Z ++ [f])).getD i [] = (e :: Z).getD i [] := by
    rw [← List.cons_append, List.getD_append _ _ _ _ (by simp; omega)]
  rwa [this] at h1

theorem fitsOn_of_sites {e f : BondInfo Q} {phys : List (List (BondInfo Q))} {n : Nat} {Z : List (BondInfo Q)} {k : Nat → SpT Q K} (hz : Z.length + 1 = n)
    (hp : phys.length = n) (hs : ∀ i < n, Conforms ((e :: Z).getD i [] :: phys.getD i [] ++ [(Z ++ [f]).getD i []]) (k i)) (hg : ∀ b ∈ Z, GoodBond b)
    (hu : ∀ i < n, UniqueLabels (k i)) (hc : ∀ i < n, HasCharge ((phys.getD i []).length + 2) (k i)) : FitsOn e f phys n Z k := by
  refine ⟨?_, hg, hu, hc⟩
  show OnBonds (e :: (Z ++ [f])) phys _
  refine onBonds_index.2 ⟨by simp; omega, by simp; omega, fun i hi => ?_⟩
  simp only [List.length_map, List.length_range] at hi
  rw [getD_range_map k hi, ← List.cons_append, List.getD_append _ _ _ _ (by simp; omega)]
  exact hs i hi

theorem drop_take_one {α : Type} (L : List α) {l : Nat} (h : l < L.length) (d : α) : (L.drop l).take 1 = [L.getD l d] := by
  rw [List.drop_eq_getElem_cons h, List.getD_eq_getElem _ _ h]
  rfl

theorem drop_take_two {α : Type} (L : List α) {l : Nat} (h : l + 1 < L.length) (d : α) : (L.drop l).take 2 = [L.getD l d, L.getD (l + 1) d] := by
  rw [List.drop_eq_getElem_cons (Nat.lt_of_succ_lt h), List.drop_eq_getElem_cons h, List.getD_eq_getElem _ _ h, List.getD_eq_getElem _ _ (Nat.lt_of_succ_lt h)]
  rfl

/-- A label whose parity completes the labels to an even number. -/
theorem even_label {isF : Q → Bool} (h0 : isF 0 = false) (qs : List Q) : ∃ q, isF q = fermParity isF qs := by
  cases h : fermParity isF qs with
  | false => exact ⟨0, h0⟩
  | true =>
    by_contra hn
    have : ∀ q ∈ qs, isF q = false := fun q _ => by
      cases hq : isF q with
      | false => rfl
      | true => exact absurd ⟨q, hq⟩ hn
    have h1 : qs.countP isF = 0 := List.countP_eq_zero.2 (fun q hq => by simp [this q hq])
    simp [fermParity, h1] at h

/-- A ket that agrees with `k` outside the window and is a basis vector in the window. -/
theorem unit_ket {isF : Q → Bool} (h0 : isF 0 = false) {e f : BondInfo Q} (ge : GoodBond e) (gf : GoodBond f)
    {phys : List (List (BondInfo Q))} (gp : ∀ ph ∈ phys, ∀ c ∈ ph, GoodBond c) {n : Nat} {Z : List (BondInfo Q)} {k : Nat → SpT Q K}
    {l r : Nat} (hlr : l < r) (hr2 : r ≤ l + 2) (hr : r ≤ n) (hF : FitsOn e f phys n Z k) (he : ∀ i < n, EvenBlocks isF (k i))
    {x : List (Q × Nat)} (hx : x ∈ evenIndices isF (windowLegs e f Z phys l r)) :
    ∃ (k' : Nat → SpT Q K) (Z' : List (BondInfo Q)), (∀ i, i < l ∨ r ≤ i → k' i = k i) ∧ SameOutside l r Z Z' ∧ FitsOn e f phys n Z' k' ∧
      (∀ i < n, EvenBlocks isF (k' i)) ∧ ∀ a ps b, List.Forall₂ (fun (p : List (Q × Nat)) ph => p.length = ph.length) ps ((phys.drop l).take (r - l)) →
        ampl ((List.range' l (r - l)).map k') ((Z'.drop l).take (r - 1 - l)) a ps b = if a :: ps.flatten ++ [b] = x then 1 else 0 := by
  obtain ⟨hz, hp⟩ := hF.lengths
  obtain ⟨hx, hev⟩ := List.mem_filter.1 hx
  have hev : fermParity isF (x.map Prod.fst) = false := by simpa using hev
  have wl : Dict.WF ((e :: Z).getD l []) := by
    rw [List.getD_eq_getElem _ _ (by simp; omega)]
    rcases List.mem_cons.1 (List.getElem_mem (l := e :: Z) (n := l) (by simp; omega)) with h | h
    · rw [h]; exact ge.1
    · exact (hF.good _ h).1
  have wr : Dict.WF ((Z ++ [f]).getD (r - 1) []) := by
    rw [List.getD_eq_getElem _ _ (by simp; omega)]
    rcases List.mem_append.1 (List.getElem_mem (l := Z ++ [f]) (n := r - 1) (by simp; omega)) with h | h
    · exact (hF.good _ h).1
    · rw [List.mem_singleton.1 h]; exact gf.1
  have wp : ∀ i < n, ∀ c ∈ phys.getD i [], Dict.WF c := by
    intro i hi c hc
    rw [List.getD_eq_getElem _ _ (by omega)] at hc
    exact (gp _ (List.getElem_mem _) c hc).1
  rcases (show r = l + 1 ∨ r = l + 2 by omega) with rfl | rfl
  · unfold windowLegs at hx
    rw [show l + 1 - l = 1 by omega, show l + 1 - 1 = l by omega, drop_take_one phys (by omega) [], List.flatten_singleton] at hx
    rw [show l + 1 - 1 = l by omega] at wr
    have hw : ∀ b ∈ (e :: Z).getD l [] :: phys.getD l [] ++ [(Z ++ [f]).getD l []], Dict.WF b := by
      intro b hb
      simp only [List.cons_append, List.mem_cons, List.mem_append, List.not_mem_nil, or_false] at hb
      rcases hb with rfl | hb | rfl
      · exact wl
      · exact wp l (by omega) b hb
      · exact wr
    refine ⟨Function.update k l (unitT ((e :: Z).getD l [] :: phys.getD l [] ++ [(Z ++ [f]).getD l []]) x), Z, ?_, fun _ _ => rfl, ?_, ?_, ?_⟩
    · intro i hi
      rw [Function.update_of_ne (by omega)]
    · refine fitsOn_of_sites hz hp ?_ hF.good ?_ ?_
      · intro i hi
        by_cases h : i = l
        · subst h
          rw [Function.update_self]
          exact unitT_conforms hw hx
        · rw [Function.update_of_ne h]
          exact fitsOn_site hF hi
      · intro i hi
        by_cases h : i = l
        · subst h
          rw [Function.update_self]
          exact unitT_unique _ _
        · rw [Function.update_of_ne h]
          exact hF.unique i hi
      · intro i hi
        by_cases h : i = l
        · subst h
          rw [Function.update_self]
          exact unitT_charge _ _ _
        · rw [Function.update_of_ne h]
          exact hF.charge i hi
    · intro i hi
      by_cases h : i = l
      · subst h
        rw [Function.update_self]
        exact unitT_even _ hev
      · rw [Function.update_of_ne h]
        exact he i hi
    · intro a ps b hps
      rw [show l + 1 - l = 1 by omega, drop_take_one phys (by omega) []] at hps
      obtain ⟨p, rfl⟩ : ∃ p, ps = [p] := List.length_eq_one_iff.1 (by simpa using hps.length_eq)
      rw [show l + 1 - l = 1 by omega, show l + 1 - 1 - l = 0 by omega]
      simp only [List.range'_one, List.map_cons, List.map_nil, List.take_zero, Function.update_self, ampl, List.flatten_singleton]
      exact unitT_entry hw hx _
  · unfold windowLegs at hx
    rw [show l + 2 - l = 2 by omega, show l + 2 - 1 = l + 1 by omega, drop_take_two phys (by omega) []] at hx
    rw [show l + 2 - 1 = l + 1 by omega] at wr
    have hx' : x ∈ legIndices (((e :: Z).getD l [] :: phys.getD l []) ++ (phys.getD (l + 1) [] ++ [(Z ++ [f]).getD (l + 1) []])) := by
      simpa using hx
    obtain ⟨u, hu, v, hv, rfl⟩ := mem_legIndices_append hx'
    obtain ⟨q, hq⟩ := even_label h0 (u.map Prod.fst)
    have hw1 : ∀ b ∈ (e :: Z).getD l [] :: phys.getD l [] ++ [[(q, 1)]], Dict.WF b := by
      intro b hb
      simp only [List.cons_append, List.mem_cons, List.mem_append, List.not_mem_nil, or_false] at hb
      rcases hb with rfl | hb | rfl
      · exact wl
      · exact wp l (by omega) b hb
      · exact (goodBond_one q).1
    have hw2 : ∀ b ∈ [(q, 1)] :: phys.getD (l + 1) [] ++ [(Z ++ [f]).getD (l + 1) []], Dict.WF b := by
      intro b hb
      simp only [List.cons_append, List.mem_cons, List.mem_append, List.not_mem_nil, or_false] at hb
      rcases hb with rfl | hb | rfl
      · exact (goodBond_one q).1
      · exact wp (l + 1) (by omega) b hb
      · exact wr
    have hb1 : u ++ [(q, 0)] ∈ legIndices ((e :: Z).getD l [] :: phys.getD l [] ++ [[(q, 1)]]) := by
      refine (mem_cart _ _).2 ?_
      rw [List.map_append]
      exact List.rel_append ((mem_cart _ _).1 hu) (.cons (by simp [legBasis]) .nil)
    have hb2 : (q, 0) :: v ∈ legIndices ([(q, 1)] :: phys.getD (l + 1) [] ++ [(Z ++ [f]).getD (l + 1) []]) := by
      refine (mem_cart _ _).2 ?_
      rw [List.cons_append, List.map_cons]
      exact .cons (by simp [legBasis]) ((mem_cart _ _).1 hv)
    rw [List.map_append, fermParity_append] at hev
    have ev1 : fermParity isF ((u ++ [(q, 0)]).map Prod.fst) = false := by
      rw [List.map_append, fermParity_append, ← hq, List.map_singleton, fermParity_cons]
      simp [fermParity]
    have ev2 : fermParity isF (((q, 0) :: v).map Prod.fst) = false := by
      rw [List.map_cons, fermParity_cons, hq]
      exact hev
    let A : SpT Q K := unitT ((e :: Z).getD l [] :: phys.getD l [] ++ [[(q, 1)]]) (u ++ [(q, 0)])
    let B : SpT Q K := unitT ([(q, 1)] :: phys.getD (l + 1) [] ++ [(Z ++ [f]).getD (l + 1) []]) ((q, 0) :: v)
    have key : ∀ {P : Nat → SpT Q K → Prop}, P l A → P (l + 1) B → (∀ i < n, P i (k i)) → ∀ i < n, P i (Function.update (Function.update k l A) (l + 1) B i) := by
      intro P hA hB hk i hi
      by_cases h : i = l + 1
      · subst h
        rw [Function.update_self]
        exact hB
      · rw [Function.update_of_ne h]
        by_cases h' : i = l
        · subst h'
          rw [Function.update_self]
          exact hA
        · rw [Function.update_of_ne h']
          exact hk i hi
    refine ⟨Function.update (Function.update k l A) (l + 1) B, Z.set l [(q, 1)], ?_, ?_, ?_, ?_, ?_⟩
    · intro i hi
      rw [Function.update_of_ne (by omega), Function.update_of_ne (by omega)]
    · intro i hi
      exact getD_set_ne (by omega)
    · refine fitsOn_of_sites (by simpa using hz) hp ?_ ?_ ?_ ?_
      · intro i hi
        rw [getD_append_set (by omega)]
        by_cases h : i = l + 1
        · subst h
          rw [Function.update_self, if_neg (by omega), List.getD_cons_succ, List.getD_eq_getElem?_getD, List.getElem?_set_self (by omega)]
          exact unitT_conforms hw2 hb2
        · rw [Function.update_of_ne h, getD_cons_set h]
          by_cases h' : i = l
          · subst h'
            rw [Function.update_self, if_pos rfl]
            exact unitT_conforms hw1 hb1
          · rw [Function.update_of_ne h', if_neg h']
            exact fitsOn_site hF hi
      · intro b hb
        rcases List.mem_or_eq_of_mem_set hb with hb | rfl
        · exact hF.good b hb
        · exact goodBond_one q
      · exact key (P := fun _ T => UniqueLabels T) (unitT_unique _ _) (unitT_unique _ _) hF.unique
      · exact key (P := fun i T => HasCharge ((phys.getD i []).length + 2) T) (unitT_charge _ _ _) (unitT_charge _ _ _) hF.charge
    · exact key (P := fun _ T => EvenBlocks isF T) (unitT_even _ ev1) (unitT_even _ ev2) he
    · intro a ps b hps
      rw [show l + 2 - l = 2 by omega, drop_take_two phys (by omega) []] at hps
      obtain ⟨p, p', rfl⟩ : ∃ p p', ps = [p, p'] := List.length_eq_two.1 (by simpa using hps.length_eq)
      rw [show l + 2 - l = 2 by omega, show l + 2 - 1 - l = 1 by omega, drop_take_one _ (by simp; omega) []]
      have hr2 : List.range' l 2 = [l, l + 1] := rfl
      simp only [hr2, List.map_cons, List.map_nil, Function.update_self, List.flatten_cons, List.flatten_nil, List.append_nil]
      rw [Function.update_of_ne (by omega), Function.update_self, List.getD_eq_getElem?_getD, List.getElem?_set_self (by omega), Option.getD_some, ampl_cons,
        legBasis_single, List.map_singleton, List.sum_singleton]
      simp only [ampl]
      rw [unitT_entry hw1 hb1, unitT_entry hw2 hb2]
      have lu := legIndices_length hu
      have lp : p.length = (phys.getD l []).length := by
        cases hps with | cons h _ => exact h
      by_cases h : a :: (p ++ p') ++ [b] = u ++ v
      · have h' : (a :: p) ++ (p' ++ [b]) = u ++ v := by simpa using h
        obtain ⟨rfl, rfl⟩ := List.append_inj h' (by simp [lp, lu])
        simp
      · rw [if_neg h]
        by_cases h1 : a :: p ++ [(q, 0)] = u ++ [(q, 0)]
        · rw [if_pos h1, if_neg, mul_zero]
          intro h2
          apply h
          have := List.append_cancel_right h1
          rw [← this]
          have h3 := (List.cons.inj h2).2
          rw [← h3]
          simp
        · rw [if_neg h1, zero_mul]

end
end Verif
