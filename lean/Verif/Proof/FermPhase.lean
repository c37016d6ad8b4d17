import Verif.Model.FermPhase
import Verif.Thm.Fermion
import Mathlib.Data.List.GetD
import Mathlib.GroupTheory.Perm.Fin
import Mathlib.GroupTheory.Perm.Cycle.Factors

set_option linter.unusedSectionVars false

/-!
The parity of the number of even cycles is the sign of the permutation.
-/

namespace Verif
namespace FermPhase
open Equiv Equiv.Perm

section cycles
variable {k : Nat} (σ : Perm (Fin k)) (fp : List Nat)

/-- length of the cycle through `a` -/
noncomputable def period (a : Fin k) : Nat := orderOf (cycleOf σ a)

theorem period_pos (a : Fin k) : 0 < period σ a := orderOf_pos _

theorem pow_period (a : Fin k) : (σ ^ period σ a) a = a := by
  rw [← cycleOf_pow_apply_self, period, pow_orderOf_eq_one]; rfl

theorem period_dvd (a : Fin k) (n : Nat) (h : (σ ^ n) a = a) : period σ a ∣ n := by
  unfold period
  rw [orderOf_dvd_iff_pow_eq_one]
  rw [← cycleOf_pow_apply_self] at h
  by_cases ha : σ a = a
  · rw [cycleOf_eq_one_iff σ |>.2 ha, one_pow]
  · have hc := isCycle_cycleOf σ ha
    exact (hc.pow_eq_one_iff' (x := a) (by rw [cycleOf_apply_self]; exact ha)).2 h

theorem pow_inj (a : Fin k) {s t : Nat} (hs : s < t) (ht : t < period σ a) : (σ ^ s) a ≠ (σ ^ t) a := by
  intro h
  have h1 : (σ ^ (t - s)) a = a := by
    have e : σ ^ t = σ ^ s * σ ^ (t - s) := by rw [← pow_add]; congr 1; omega
    rw [e, Perm.mul_apply] at h
    exact ((σ ^ s).injective h).symm
  have := Nat.le_of_dvd (by omega) (period_dvd σ a _ h1)
  omega

/-- The positions visited in the first `j` turns, latest first. -/
def trail (a : Fin k) : Nat → List Nat
  | 0 => []
  | j + 1 => ((σ ^ j) a : Fin k).val :: trail a j

theorem mem_trail (a : Fin k) (j x : Nat) : x ∈ trail σ a j ↔ ∃ t < j, ((σ ^ t) a : Fin k).val = x := by
  induction j with
  | zero => simp [trail]
  | succ j ih =>
    rw [trail, List.mem_cons, ih]
    constructor
    · rintro (h | ⟨t, ht, h⟩)
      · exact ⟨j, by omega, h.symm⟩
      · exact ⟨t, by omega, h⟩
    · rintro ⟨t, ht, h⟩
      rcases Nat.lt_succ_iff_lt_or_eq.1 ht with h1 | h1
      · exact Or.inr ⟨t, h1, h⟩
      · subst h1; exact Or.inl h.symm

theorem walk_spec (hfp : ∀ i : Fin k, fp.getD i 0 = (σ i).val) (a : Fin k) (tag : List Nat)
    (hd : ∀ t, ((σ ^ t) a : Fin k).val ∉ tag) (d : Nat) : ∀ j fuel n, j + d = period σ a → d < fuel →
    walk fp fuel (trail σ a j ++ tag) ((σ ^ j) a : Fin k).val n =
      (trail σ a (period σ a) ++ tag, n ^^ decide (d % 2 = 1)) := by
  induction d with
  | zero =>
    intro j fuel n hj hf
    obtain ⟨f, rfl⟩ : ∃ f, fuel = f + 1 := ⟨fuel - 1, by omega⟩
    have hj' : j = period σ a := by omega
    rw [walk, if_pos]
    · rw [hj']; simp
    · rw [List.mem_append, mem_trail]
      left
      refine ⟨0, by have := period_pos σ a; omega, ?_⟩
      rw [hj', pow_period]; simp
  | succ d ih =>
    intro j fuel n hj hf
    obtain ⟨f, rfl⟩ : ∃ f, fuel = f + 1 := ⟨fuel - 1, by omega⟩
    rw [walk, if_neg, hfp]
    · have h1 : (σ ((σ ^ j) a)) = (σ ^ (j + 1)) a := by rw [pow_succ', Perm.mul_apply]
      rw [h1]
      have := ih (j + 1) f (!n) (by omega) (by omega)
      rw [trail, List.cons_append] at this
      rw [this]
      have h2 : decide ((d + 1) % 2 = 1) = !decide (d % 2 = 1) := by
        rcases Nat.mod_two_eq_zero_or_one d with h | h <;> simp [Nat.add_mod, h]
      rw [h2]
      cases n <;> cases decide (d % 2 = 1) <;> rfl
    · rw [List.mem_append, mem_trail]
      rintro (⟨t, ht, h⟩ | h)
      · exact pow_inj σ a ht (by omega) (Fin.ext h)
      · exact hd j h

theorem period_le (a : Fin k) : period σ a ≤ k := by
  by_contra hc
  push Not at hc
  have hinj : Function.Injective fun t : Fin (k + 1) => (σ ^ t.val) a := by
    intro s t h
    by_contra hne
    rcases Nat.lt_or_gt_of_ne (fun h => hne (Fin.ext h)) with h1 | h1
    · exact pow_inj σ a h1 (by have := t.2; omega) h
    · exact pow_inj σ a h1 (by have := s.2; omega) h.symm
  have := Fintype.card_le_of_injective _ hinj
  simp at this

theorem sign_cycle (a : Fin k) : (sign (cycleOf σ a) : ℤˣ) = (-1) ^ (period σ a + 1) := by
  unfold period
  by_cases ha : σ a = a
  · rw [cycleOf_eq_one_iff σ |>.2 ha, orderOf_one]; simp
  · have hc := isCycle_cycleOf σ ha
    rw [hc.orderOf, hc.sign, pow_succ, mul_neg, mul_one]

theorem sameCycle_pow (a x : Fin k) : SameCycle σ a x ↔ ∃ t < period σ a, (σ ^ t) a = x := by
  constructor
  · intro h
    obtain ⟨i, _, hi⟩ := h.exists_pow_eq'
    refine ⟨i % period σ a, Nat.mod_lt _ (period_pos σ a), ?_⟩
    rw [← hi, ← cycleOf_pow_apply_self σ a i, ← cycleOf_pow_apply_self σ a (i % _), period, pow_mod_orderOf]
  · rintro ⟨t, _, h⟩
    exact ⟨t, by simpa using h⟩

/-- What the loop has established: the tagged positions are closed, and `n` is the sign on them. -/
def Inv (st : List Nat × Bool) : Prop :=
  (∀ x : Fin k, (σ x).val ∈ st.1 ↔ x.val ∈ st.1) ∧
  ∃ τ : Perm (Fin k), (∀ x : Fin k, τ x = if x.val ∈ st.1 then σ x else x) ∧ (sign τ : ℤˣ) = (-1) ^ st.2.toNat

theorem step_inv (hl : fp.length = k) (hfp : ∀ i : Fin k, fp.getD i 0 = (σ i).val) (st : List Nat × Bool) (h : Inv σ st)
    (a : Fin k) : Inv σ (cycleStep fp st a.val) ∧ a.val ∈ (cycleStep fp st a.val).1 ∧ st.1 ⊆ (cycleStep fp st a.val).1 := by
  obtain ⟨hc, τ, hτ, hs⟩ := h
  unfold cycleStep
  by_cases ha : a.val ∈ st.1
  · rw [walk, if_pos ha]
    refine ⟨⟨hc, τ, hτ, ?_⟩, ha, fun x h => h⟩
    simpa [ha] using hs
  · have hpow : ∀ t, ((σ ^ t) a : Fin k).val ∉ st.1 := by
      intro t
      induction t with
      | zero => simpa using ha
      | succ t ih => rw [pow_succ', Perm.mul_apply, hc]; exact ih
    have hw := walk_spec σ fp hfp a st.1 hpow (period σ a) 0 (fp.length + 1) (st.2 ^^ !(decide (a.val ∈ st.1))) (by omega)
      (by have := period_le σ a; omega)
    have h0 : ((σ ^ 0) a : Fin k) = a := by simp
    rw [trail, List.nil_append, h0] at hw
    rw [hw]
    have hmem : ∀ x : Fin k, x.val ∈ trail σ a (period σ a) ↔ SameCycle σ a x := by
      intro x
      rw [mem_trail, sameCycle_pow]
      constructor
      · rintro ⟨t, ht, h⟩; exact ⟨t, ht, Fin.ext h⟩
      · rintro ⟨t, ht, h⟩; exact ⟨t, ht, congrArg Fin.val h⟩
    have hdis : ∀ x : Fin k, SameCycle σ a x → x.val ∉ st.1 := by
      intro x hx
      obtain ⟨t, _, h⟩ := (sameCycle_pow σ a x).1 hx
      rw [← h]; exact hpow t
    refine ⟨⟨?_, τ * cycleOf σ a, ?_, ?_⟩, ?_, ?_⟩
    · intro x
      simp only [List.mem_append]
      rw [hmem, hmem, hc, sameCycle_apply_right]
    · intro x
      simp only [List.mem_append]
      rw [Perm.mul_apply, cycleOf_apply]
      by_cases hx : SameCycle σ a x
      · rw [if_pos hx, if_pos (Or.inl ((hmem x).2 hx)), hτ, if_neg]
        exact hdis _ ((sameCycle_apply_right).2 hx)
      · rw [if_neg hx, hτ]
        have hx' : x.val ∉ trail σ a (period σ a) := fun h => hx ((hmem x).1 h)
        simp only [hx', false_or]
    · rw [sign_mul, sign_cycle, hs]
      simp only [ha, decide_false, Bool.not_false]
      rcases Nat.mod_two_eq_zero_or_one (period σ a) with hp | hp
      · rw [show (-1 : ℤˣ) ^ (period σ a + 1) = -1 from Odd.neg_one_pow (by rw [Nat.odd_iff]; omega)]
        cases st.2 <;> simp [hp]
      · rw [show (-1 : ℤˣ) ^ (period σ a + 1) = 1 from Even.neg_one_pow (by rw [Nat.even_iff]; omega)]
        cases st.2 <;> simp [hp]
    · exact List.mem_append_left _ ((hmem a).2 (SameCycle.refl _ _))
    · exact List.subset_append_right _ _

theorem oddCycles_sign (hl : fp.length = k) (hfp : ∀ i : Fin k, fp.getD i 0 = (σ i).val) :
    (sign σ : ℤˣ) = (-1) ^ (oddCycles fp).toNat := by
  have key : ∀ (l : List Nat) (st : List Nat × Bool), (∀ i ∈ l, i < k) → Inv σ st →
      Inv σ (l.foldl (cycleStep fp) st) ∧ (∀ i ∈ l, i ∈ (l.foldl (cycleStep fp) st).1) ∧ st.1 ⊆ (l.foldl (cycleStep fp) st).1 := by
    intro l
    induction l with
    | nil => intro st _ h; exact ⟨h, by simp, fun x h => h⟩
    | cons i t ih =>
      intro st hi h
      obtain ⟨h1, h2, h3⟩ := step_inv σ fp hl hfp st h ⟨i, hi i (by simp)⟩
      obtain ⟨g1, g2, g3⟩ := ih (cycleStep fp st i) (fun j hj => hi j (by simp [hj])) h1
      refine ⟨g1, ?_, fun x hx => g3 (h3 hx)⟩
      intro j hj
      rcases List.mem_cons.1 hj with rfl | hj
      · exact g3 h2
      · exact g2 j hj
  obtain ⟨⟨_, τ, hτ, hs⟩, h2, _⟩ := key (List.range fp.length) ([], false) (by intro i hi; rw [List.mem_range] at hi; omega)
    ⟨by simp, 1, by simp, by simp⟩
  have : τ = σ := by
    ext x
    rw [hτ, if_pos (h2 _ (by rw [List.mem_range, hl]; exact x.2))]
  rw [← this]
  exact hs
end cycles

/-- minus one if the pair is out of order -/
def ordSign (x y : Nat) : Int := if y < x then -1 else 1

theorem pairProd_ofFn : ∀ {n : Nat} (f : Fin n → Nat), Function.Injective f →
    pairProd ordSign (List.ofFn f) = ∏ i, ∏ j ∈ Finset.Ioi i, if f i < f j then (1 : Int) else -1 := by
  intro n
  induction n with
  | zero => intro f _; rfl
  | succ n ih =>
    intro f hf
    rw [List.ofFn_succ, pairProd, Fin.prod_univ_succ, ih _ (fun i j h => Fin.succ_injective _ (hf h))]
    congr 1
    · rw [Fin.prod_Ioi_zero, List.map_ofFn, List.prod_ofFn]
      apply Finset.prod_congr rfl
      intro j _
      have : f 0 ≠ f j.succ := fun h => absurd (hf h) (Fin.succ_ne_zero j).symm
      unfold ordSign
      simp only [Function.comp]
      by_cases h : f j.succ < f 0
      · rw [if_pos h, if_neg (by omega)]
      · rw [if_neg h, if_pos (by omega)]
    · apply Finset.prod_congr rfl
      intro i _
      rw [Fin.prod_Ioi_succ]

theorem oddCycles_pairProd {k : Nat} {fp : List Nat} (hp : fp.Perm (List.range k)) :
    1 - 2 * ((oddCycles fp).toNat : Int) = pairProd ordSign fp := by
  have hl : fp.length = k := by simpa using hp.length_eq
  have hlt : ∀ i (h : i < fp.length), fp[i] < k := fun i h => List.mem_range.1 (hp.mem_iff.1 (List.getElem_mem h))
  have hnd : fp.Nodup := hp.nodup_iff.2 List.nodup_range
  let f : Fin k → Fin k := fun i => ⟨fp[i.val]'(by omega), hlt _ _⟩
  have hf : Function.Injective f := by
    intro i j h
    have := congrArg Fin.val h
    exact Fin.ext ((List.Nodup.getElem_inj_iff hnd).1 this)
  let σ : Perm (Fin k) := Equiv.ofBijective f (Finite.injective_iff_bijective.1 hf)
  have hσ : ∀ i : Fin k, (σ i).val = fp[i.val]'(by omega) := fun i => rfl
  have h1 := oddCycles_sign σ fp hl (fun i => by
    rw [hσ, List.getD_eq_getElem]
    )
  have h2 : fp = List.ofFn fun i : Fin k => (σ i).val := by
    apply List.ext_getElem
    · simp [hl]
    · intro i _ _
      rw [List.getElem_ofFn, hσ]
  have h3 : pairProd ordSign fp = (sign σ : Int) := by
    conv_lhs => rw [h2]
    rw [pairProd_ofFn _ (fun i j h => σ.injective (Fin.ext h)), sign_eq_prod_prod_Ioi]
    rw [Units.coe_prod]
    apply Finset.prod_congr rfl
    intro i _
    rw [Units.coe_prod]
    apply Finset.prod_congr rfl
    intro j _
    simp only [Fin.lt_def]
    split_ifs <;> rfl
  rw [h3, h1]
  cases oddCycles fp <;> rfl

theorem revIdx_append (odd : List Bool) (b : Bool) (i : Nat) (h : i ≤ odd.length) : revIdx (odd ++ [b]) i = revIdx odd i := by
  unfold revIdx
  rw [List.take_append_of_le_length h]

theorem fperm_range (odd : List Bool) : fperm odd (List.range odd.length) = List.range (odd.count true) := by
  induction odd using List.reverseRecOn with
  | nil => rfl
  | append_singleton odd b ih =>
    have h1 : (List.range odd.length).filter (fun l => (odd ++ [b]).getD l false) =
        (List.range odd.length).filter (fun l => odd.getD l false) := by
      apply List.filter_congr
      intro i hi
      rw [List.mem_range] at hi
      rw [List.getD_append _ _ _ _ hi]
    have h2 : ((List.range odd.length).filter (fun l => odd.getD l false)).map (revIdx (odd ++ [b])) =
        ((List.range odd.length).filter (fun l => odd.getD l false)).map (revIdx odd) := by
      apply List.map_congr_left
      intro i hi
      exact revIdx_append odd b i (le_of_lt (List.mem_range.1 (List.mem_filter.1 hi).1))
    unfold fperm at ih ⊢
    rw [List.length_append, List.length_singleton, List.range_succ, List.filter_append, List.map_append, h1, h2, ih]
    have h3 : (odd ++ [b]).getD odd.length false = b := by
      rw [List.getD_append_right _ _ _ _ (le_refl _)]; simp
    have h4 : revIdx (odd ++ [b]) odd.length = odd.count true := by
      rw [revIdx_append _ _ _ (le_refl _)]; simp [revIdx]
    cases b
    · simp
    · simp [h4, List.range_succ]

theorem revIdx_mono {odd : List Bool} {x y : Nat} (hxy : x < y) (hx : odd.getD x false = true) : revIdx odd x < revIdx odd y := by
  have hl : x < odd.length := by
    by_contra h
    rw [List.getD_eq_default _ _ (by omega)] at hx
    simp at hx
  have h1 : (odd.take (x + 1)).count true = revIdx odd x + 1 := by
    rw [List.take_succ_eq_append_getElem hl, List.count_append]
    rw [List.getD_eq_getElem _ _ hl] at hx
    rw [hx]; simp [revIdx]
  have h2 : (odd.take (x + 1)).count true ≤ (odd.take y).count true :=
    (List.Sublist.count_le true ((List.take_prefix_take_left (by omega : x + 1 ≤ y)).sublist))
  have h3 : revIdx odd y = (odd.take y).count true := rfl
  omega

theorem pairProd_filter (odd : List Bool) (l : List Nat) :
    pairProd (swapSign odd) l = pairProd (swapSign odd) (l.filter fun x => odd.getD x false) := by
  have hz : ∀ x, odd.getD x false = false → ∀ t : List Nat, (t.map (swapSign odd x)).prod = 1 := by
    intro x hx t
    apply prod_eq_one'
    intro y _
    unfold swapSign
    rw [hx]; rfl
  have hz2 : ∀ x (t : List Nat), (t.map (swapSign odd x)).prod = ((t.filter fun x => odd.getD x false).map (swapSign odd x)).prod := by
    intro x t
    induction t with
    | nil => rfl
    | cons y t ih =>
      by_cases hy : odd.getD y false = true
      · rw [List.filter_cons_of_pos (by exact hy), List.map_cons, List.prod_cons, List.map_cons, List.prod_cons, ih]
      · rw [List.filter_cons_of_neg (by exact hy), List.map_cons, List.prod_cons, ih]
        have : swapSign odd x y = 1 := by
          unfold swapSign
          rw [Bool.eq_false_of_not_eq_true hy]; simp
        rw [this, one_mul]
  induction l with
  | nil => rfl
  | cons x t ih =>
    by_cases hx : odd.getD x false = true
    · rw [List.filter_cons_of_pos (by exact hx), pairProd, pairProd, ih, hz2]
    · rw [List.filter_cons_of_neg (by exact hx), pairProd, ih, hz x (Bool.eq_false_of_not_eq_true hx), one_mul]

theorem phase_order (odd : List Bool) (order : List Nat) (hp : order.Perm (List.range odd.length)) :
    1 - 2 * ((oddCycles (fperm odd order)).toNat : Int) = reorderSign odd order := by
  have h1 : (fperm odd order).Perm (List.range (odd.count true)) := by
    rw [← fperm_range]
    exact (hp.filter _).map _
  rw [oddCycles_pairProd h1, reorderSign_eq, pairProd_filter]
  unfold fperm
  rw [pairProd_map]
  apply pairProd_congr
  have hm := mem_pairwise (l := order.filter fun l => odd.getD l false)
  refine hm.imp ?_
  rintro x y ⟨hx, hy⟩
  have hx := (List.mem_filter.1 hx).2
  have hy := (List.mem_filter.1 hy).2
  unfold ordSign swapSign
  rw [hx, hy]
  by_cases h : y < x
  · rw [if_pos (revIdx_mono h hy)]; simp [h]
  · have : ¬ revIdx odd y < revIdx odd x := by
      rcases Nat.lt_or_eq_of_le (Nat.le_of_not_lt h) with h' | h'
      · have := revIdx_mono h' hx; omega
      · subst h'; omega
    rw [if_neg this]; simp [h]

end FermPhase
end Verif
