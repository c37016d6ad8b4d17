import Verif.Model.Heisenberg
import Verif.Thm.Hamiltonian
import Verif.Thm.OpT
import Mathlib.LinearAlgebra.Matrix.Notation
import Mathlib.Algebra.CharZero.Defs
import Mathlib.Analysis.Real.Sqrt

/-!
Property C43: the spin matrices and the coupling terms of the Heisenberg model.
-/

set_option linter.unusedSectionVars false
set_option linter.unusedSimpArgs false

namespace Verif.Heisenberg
open Hamiltonian (one1 setItem setEven matEl szLe SZ_add SZ_neg SZ_zero SZ_sub entry_nil)
variable {K : Type} [Field K]

/-! ### Specification -/

/-- The basis states of spin `n / 2`, counted from the lowest magnetic number: twice the magnetic number is `2 k - n`. -/
def state (n k : Nat) : SZ := ⟨0, 2 * (k : Int) - n, 0⟩

/-- The matrix of an operator in this basis. -/
def mat (n : Nat) (T : OpT SZ K) : Matrix (Fin (n + 1)) (Fin (n + 1)) K := fun a b => matEl T (state n a) (state n b)

/-! ### Blocks -/

theorem state_inj {n a b : Nat} : state n a = state n b ↔ a = b := by
  simp [state]

theorem range2_eq (lo : Int) (m : Nat) (hi : Int) (h : hi = lo + 2 * (m : Int) - 1 ∨ hi = lo + 2 * m) :
    range2 lo hi = (List.range m).map fun k : Nat => lo + 2 * (k : Int) := by
  have : ((hi - lo + 1) / 2).toNat = m := by omega
  simp [range2, this]

theorem foldl_set_fresh (l : List SZ) (d : BondInfo SZ) (hn : l.Nodup) (hd : ∀ q ∈ l, q ∉ d.map Prod.fst) :
    l.foldl (fun b q => Dict.set b q 1) d = d ++ l.map fun q => (q, 1) := by
  induction l generalizing d with
  | nil => simp
  | cons a t ih =>
    rw [List.foldl_cons, Dict.set_of_not_mem d 1 (hd a (by simp)), ih _ (List.nodup_cons.1 hn).2]
    · simp
    · intro q hq
      simp only [List.map_append, List.map_cons, List.map_nil, List.mem_append, List.mem_singleton, not_or]
      refine ⟨hd q (by simp [hq]), ?_⟩
      rintro rfl
      exact (List.nodup_cons.1 hn).1 hq

/-- The labels of the states, lowest first. -/
def states (n : Nat) : List SZ := (List.range (n + 1)).map (state n)

theorem states_nodup (n : Nat) : (states n).Nodup :=
  List.Nodup.map (fun _ _ h => state_inj.1 h) List.nodup_range

theorem basis_eq (n : Nat) : basis n = (states n).map fun q => (q, 1) := by
  have e : range2 (-(n : Int)) (n + 1) = (List.range (n + 1)).map fun k : Nat => -(n : Int) + 2 * (k : Int) :=
    range2_eq _ _ _ (by push_cast; omega)
  have h := foldl_set_fresh (states n) [] (states_nodup n) (by simp)
  rw [List.nil_append] at h
  rw [← h]
  unfold basis states
  rw [e, List.foldl_map, List.foldl_map]
  congr 1
  funext b k
  simp [state]
  congr 2
  ring

theorem mem_states {n : Nat} {q : SZ} : q ∈ states n ↔ ∃ k, k ≤ n ∧ q = state n k := by
  simp [states, Nat.lt_succ_iff, eq_comm]

theorem map_filter' {α β : Type} (f : α → β) (p : α → Bool) (l : List α) :
    (l.filter p).map f = l.filterMap fun x => if p x then some (f x) else none := by
  induction l with
  | nil => rfl
  | cons a t ih => by_cases h : p a = true <;> simp [List.filter_cons, List.filterMap_cons, h, ih]

/-- Blocks with one entry each, at the labels `L`. -/
def mk (L : List (SZ × SZ)) (f : SZ → K) : SpT SZ K := L.map fun p => ([p.1, p.2], one1 (f p.2))

theorem siteZeros_eq (n : Nat) (dq : SZ) (hF : SZ.isFermion dq = false) :
    ∃ L : List (SZ × SZ), (siteZeros n dq : Option (OpT SZ K)) = some ⟨[], mk L fun _ => 0⟩ ∧ L.Nodup ∧
      (L.map Prod.snd).Nodup ∧ ∀ p, p ∈ L ↔ p.1 ∈ states n ∧ p.2 ∈ states n ∧ p.1 = dq + p.2 := by
  let s := sortBy (fun x y : SZ × Nat => szLe x.1 y.1) (basis n)
  have hp : s.Perm (basis n) := sortBy_perm _ _
  have hs1 : ∀ p ∈ s, p.2 = 1 := by
    intro p hp'
    have := hp.mem_iff.1 hp'
    rw [basis_eq] at this
    obtain ⟨q, -, rfl⟩ := List.mem_map.1 this
    rfl
  have hk : (s.map Prod.fst).Perm (states n) := by
    have := hp.map Prod.fst
    rwa [basis_eq, List.map_map, show (Prod.fst ∘ fun q : SZ => (q, 1)) = id from rfl, List.map_id] at this
  have hkn : (s.map Prod.fst).Nodup := hk.nodup_iff.2 (states_nodup n)
  let L := ((s.map Prod.fst) ×ˢ (s.map Prod.fst)).filter fun p => decide (p.1 = dq + p.2)
  have hmem : ∀ p, p ∈ L ↔ p.1 ∈ states n ∧ p.2 ∈ states n ∧ p.1 = dq + p.2 := by
    intro p
    simp only [L, List.mem_filter, decide_eq_true_eq]
    rw [List.mem_product, hk.mem_iff, hk.mem_iff, and_assoc]
  have hLn : L.Nodup := (hkn.product hkn).filter _
  refine ⟨L, ?_, hLn, ?_, hmem⟩
  · unfold siteZeros OpT.zeros SpT.zeros SpT.skeleton
    have hne : ([basis n, basis n].any List.isEmpty) = false := by
      simp [basis_eq, states, List.isEmpty_iff]
    rw [if_neg (by rw [hne]; simp)]
    simp only [Option.map_some, hF, Bool.false_eq_true, if_false, Option.some.injEq, OpT.mk.injEq, true_and]
    simp only [List.map_cons, List.map_nil]
    change List.map _ (List.filterMap _ (cart [s, s])) = mk L _
    have hc : cart [s, s] = s.flatMap fun a => s.map fun b => [a, b] := by
      have h1 : s.flatMap (fun x => [[x]]) = s.map fun x => [x] := by
        induction s with
        | nil => rfl
        | cons a t ih => rw [List.flatMap_cons, ih]; rfl
      simp only [cart, List.map_cons, List.map_nil, h1]
      simp [List.map_map, Function.comp_def]
    rw [hc, List.filterMap_flatMap, List.map_flatMap]
    have hprod : (s.map Prod.fst) ×ˢ (s.map Prod.fst) = s.flatMap fun a => s.map fun b => (a.1, b.1) := by
      change List.product _ _ = _
      simp [List.product, List.flatMap_map, List.map_map, Function.comp_def]
    simp only [L, mk, hprod]
    rw [List.filter_flatMap, List.map_flatMap]
    apply List.flatMap_congr
    intro a ha
    rw [List.filterMap_map, List.map_filterMap, List.filter_map, List.map_map, map_filter']
    apply List.filterMap_congr
    intro b hb
    have e1 := hs1 a ha
    have e2 := hs1 b hb
    have : (a.1 = dq - -b.1) ↔ (a.1 = dq + b.1) := by rw [sub_neg_eq_add]
    simp only [Function.comp, List.map_cons, List.map_nil, BondFusingInfo.signedLabels, Arr.zeros]
    by_cases h : a.1 = dq + b.1 <;> simp [h, e1, e2, one1]
  · apply List.Nodup.map_on _ hLn
    intro x hx y hy h
    have h1 := ((hmem x).1 hx).2.2
    have h2 := ((hmem y).1 hy).2.2
    exact Prod.ext (by rw [h1, h2, h]) h

theorem setItem_mk (L : List (SZ × SZ)) (f : SZ → K) (hL : (L.map Prod.snd).Nodup) (q : SZ) (hq : q ∈ L.map Prod.snd) (v : K) :
    setItem (mk L f) q v = some (mk L fun y => if y = q then v else f y) := by
  induction L with
  | nil => simp at hq
  | cons p t ih =>
    rw [List.map_cons, List.nodup_cons] at hL
    by_cases h : p.2 = q
    · subst h
      have ht : mk t f = mk t fun y => if y = p.2 then v else f y := by
        apply List.map_congr_left
        intro r hr
        have : r.2 ≠ p.2 := fun e => hL.1 (e ▸ List.mem_map.2 ⟨r, hr, rfl⟩)
        simp [this]
      have ht' : t.map (fun p => ([p.1, p.2], one1 (f p.2))) = mk t f := rfl
      simp only [mk, List.map_cons, setItem, List.getLast?_cons_cons, List.getLast?_singleton, if_true, one1, inBox]
      simp
      refine ⟨funext fun ix => by split_ifs <;> rfl, ?_⟩
      have := ht
      simpa [mk, one1] using this
    · have hq' : q ∈ t.map Prod.snd := by
        rw [List.map_cons, List.mem_cons] at hq
        exact hq.resolve_left fun e => h e.symm
      have := ih hL.2 hq'
      have e : mk (p :: t) f = ([p.1, p.2], one1 (f p.2)) :: mk t f := rfl
      rw [e, setItem, if_neg (by simpa using h), this]
      simp [mk, h]

theorem foldlM_mk (L : List (SZ × SZ)) (hL : (L.map Prod.snd).Nodup) (val : SZ → K) (ks : List SZ) :
    ∀ f : SZ → K, (∀ q ∈ ks, q ∈ L.map Prod.snd) →
    (ks.map fun q => (q, val q)).foldlM (fun t x => setItem t x.1 x.2) (mk L f) =
      some (mk L fun y => if y ∈ ks then val y else f y) := by
  induction ks with
  | nil => intro f _; simp
  | cons q t ih =>
    intro f hq
    rw [List.map_cons, List.foldlM_cons, setItem_mk L f hL q (hq q (by simp))]
    have := ih (fun y => if y = q then val q else f y) (fun r hr => hq r (by simp [hr]))
    simp only [Option.bind_eq_bind, Option.bind_some]
    rw [this]
    congr 2
    funext y
    by_cases h1 : y ∈ t <;> by_cases h2 : y = q <;> simp [h1, h2]

theorem entry_mk (L : List (SZ × SZ)) (hL : L.Nodup) (f : SZ → K) (x y : SZ) :
    entry (mk L f) [(x, 0), (y, 0)] = if (x, y) ∈ L then f y else 0 := by
  induction L with
  | nil => rfl
  | cons p t ih =>
    rw [List.nodup_cons] at hL
    have e : mk (p :: t) f = ([p.1, p.2], one1 (f p.2)) :: mk t f := rfl
    rw [e, Verif.Hamiltonian.entry_cons, ih hL.2]
    by_cases h : p = (x, y)
    · subst h
      simp [hL.1]
    · have h1 : ¬ (p.1 = x ∧ p.2 = y) := fun ⟨a, b⟩ => h (Prod.ext a b)
      have h2 : (x, y) ≠ p := fun e => h e.symm
      simp [h1, h2]

/-- An operator that acts on the states of the site, as an even operator of charge `dq`. -/
structure SiteOp (n : Nat) (dq : SZ) (T : OpT SZ K) : Prop where
  odd : T.odd = []
  even : Conforms [basis n, basis n] T.even
  unique : UniqueLabels T.even
  charge : Conserves [true, false] dq T.even

theorem get?_basis {n : Nat} {q : SZ} (h : q ∈ states n) : Dict.get? (basis n) q = some 1 := by
  rw [basis_eq]
  generalize states n = l at h
  induction l with
  | nil => simp at h
  | cons a t ih =>
    by_cases e : a = q
    · simp [Dict.get?, e]
    · have : q ∈ t := (List.mem_cons.1 h).resolve_left fun x => e x.symm
      have := ih this
      simpa [Dict.get?, e] using this

/-- The operators of `get_site_ops`: matrix elements `val` at the labels that are assigned. -/
theorem op_eq (n : Nat) (dq : SZ) (hF : SZ.isFermion dq = false) (ks : List SZ) (val : SZ → K)
    (hk : ∀ q ∈ ks, q ∈ states n ∧ dq + q ∈ states n) :
    ∃ T : OpT SZ K, ((siteZeros n dq).bind fun T => setEven T (ks.map fun q => (q, val q))) = some T ∧ SiteOp n dq T ∧
      ∀ x y, matEl T x y = if x ∈ states n ∧ y ∈ states n ∧ x = dq + y ∧ y ∈ ks then val y else 0 := by
  obtain ⟨L, h1, h2, h3, h4⟩ := siteZeros_eq (K := K) n dq hF
  refine ⟨⟨[], mk L fun y => if y ∈ ks then val y else 0⟩, ?_, ⟨rfl, ?_, ?_, ?_⟩, ?_⟩
  · rw [h1, Option.bind_some]
    unfold setEven
    rw [foldlM_mk L h3 val ks _ ?_]
    · rfl
    · intro q hq
      exact List.mem_map.2 ⟨(dq + q, q), (h4 _).2 ⟨(hk q hq).2, (hk q hq).1, rfl⟩, rfl⟩
  · intro b hb
    obtain ⟨p, hp, rfl⟩ := List.mem_map.1 hb
    have := (h4 p).1 hp
    exact .cons (get?_basis this.1) (.cons (get?_basis this.2.1) .nil)
  · unfold UniqueLabels mk
    rw [List.map_map]
    apply List.Nodup.map _ h2
    intro a b h
    simp only [Function.comp, List.cons.injEq, and_true] at h
    exact Prod.ext h.1 h.2
  · intro b hb
    obtain ⟨p, hp, rfl⟩ := List.mem_map.1 hb
    have := ((h4 p).1 hp).2.2
    simp [signedSum, this]
  · intro x y
    unfold matEl
    rw [entry_nil, zero_add, entry_mk L h2]
    by_cases h : (x, y) ∈ L
    · have h' := (h4 _).1 h
      simp only at h'
      rw [if_pos h]
      by_cases hy : y ∈ ks
      · rw [if_pos hy, if_pos ⟨h'.1, h'.2.1, h'.2.2, hy⟩]
      · rw [if_neg hy, if_neg fun e => hy e.2.2.2]
    · rw [if_neg h, if_neg fun e => h ((h4 _).2 ⟨e.1, e.2.1, e.2.2.1⟩)]

theorem state_mem {n k : Nat} (h : k ≤ n) : state n k ∈ states n := mem_states.2 ⟨k, h, rfl⟩

theorem raise (n k : Nat) : (⟨0, 2, 0⟩ : SZ) + state n k = state n (k + 1) := by
  simp only [SZ_add, state, SZ.mk.injEq]
  refine ⟨by simp, by push_cast; ring, by simp⟩

theorem lower (n k : Nat) : (⟨0, -2, 0⟩ : SZ) + state n (k + 1) = state n k := by
  simp only [SZ_add, state, SZ.mk.injEq]
  refine ⟨by simp, by push_cast; ring, by simp⟩

theorem stay (q : SZ) : (⟨0, 0, 0⟩ : SZ) + q = q := zero_add q

/-- C43: the raising operator.  The integer division by 4 is exact. -/
theorem C43_raising (sqrt : Int → K) (n : Nat) :
    ∃ P : OpT SZ K, spOp sqrt n = some P ∧ SiteOp n ⟨0, 2, 0⟩ P ∧
      ∀ a b, a ≤ n → b ≤ n → matEl P (state n a) (state n b) = if a = b + 1 then sqrt (((n : Int) - b) * (b + 1)) else 0 := by
  have hr : range2 (-(n : Int)) (n - 1) = (List.range n).map fun k : Nat => -(n : Int) + 2 * (k : Int) :=
    range2_eq _ _ _ (by omega)
  obtain ⟨T, h1, h2, h3⟩ := op_eq (K := K) n ⟨0, 2, 0⟩ rfl ((List.range n).map (state n))
    (fun q => sqrt (((n : Int) - q.twos) * (n + q.twos + 2) / 4)) (by
      intro q hq
      obtain ⟨k, hk, rfl⟩ := List.mem_map.1 hq
      rw [List.mem_range] at hk
      rw [raise]
      exact ⟨state_mem hk.le, state_mem hk⟩)
  refine ⟨T, ?_, h2, ?_⟩
  · rw [← h1]
    unfold spOp
    rw [hr, List.map_map, List.map_map]
    congr 1
    funext T
    congr 1
    apply List.map_congr_left
    intro k _
    simp only [Function.comp, state]
    rw [show -(n : Int) + 2 * (k : Int) = 2 * (k : Int) - n by ring]
  · intro a b ha hb
    rw [h3]
    by_cases h : a = b + 1
    · subst h
      rw [if_pos, if_pos rfl]
      · congr 1
        simp only [state]
        rw [show ((n : Int) - (2 * (b : Int) - n)) * (n + (2 * (b : Int) - n) + 2) = 4 * (((n : Int) - b) * (b + 1)) by ring]
        exact Int.mul_ediv_cancel_left _ (by norm_num)
      · exact ⟨state_mem ha, state_mem hb, (raise n b).symm, List.mem_map.2 ⟨b, List.mem_range.2 ha, rfl⟩⟩
    · rw [if_neg, if_neg h]
      rintro ⟨-, -, e, -⟩
      rw [raise] at e
      exact h (state_inj.1 e)

/-- C43: the lowering operator. -/
theorem C43_lowering (sqrt : Int → K) (n : Nat) :
    ∃ M : OpT SZ K, smOp sqrt n = some M ∧ SiteOp n ⟨0, -2, 0⟩ M ∧
      ∀ a b, a ≤ n → b ≤ n → matEl M (state n a) (state n b) = if b = a + 1 then sqrt (((n : Int) - a) * (a + 1)) else 0 := by
  have hr : range2 (-(n : Int) + 2) (n + 1) = (List.range n).map fun k : Nat => -(n : Int) + 2 + 2 * (k : Int) :=
    range2_eq _ _ _ (by omega)
  obtain ⟨T, h1, h2, h3⟩ := op_eq (K := K) n ⟨0, -2, 0⟩ rfl ((List.range n).map fun k => state n (k + 1))
    (fun q => sqrt (((n : Int) + q.twos) * (n - q.twos + 2) / 4)) (by
      intro q hq
      obtain ⟨k, hk, rfl⟩ := List.mem_map.1 hq
      rw [List.mem_range] at hk
      rw [lower]
      exact ⟨state_mem hk, state_mem hk.le⟩)
  refine ⟨T, ?_, h2, ?_⟩
  · rw [← h1]
    unfold smOp
    rw [hr, List.map_map, List.map_map]
    congr 1
    funext T
    congr 1
    apply List.map_congr_left
    intro k _
    simp only [Function.comp, state]
    rw [show -(n : Int) + 2 + 2 * (k : Int) = 2 * ((k + 1 : Nat) : Int) - n by push_cast; ring]
  · intro a b ha hb
    rw [h3]
    by_cases h : b = a + 1
    · subst h
      rw [if_pos, if_pos rfl]
      · congr 1
        simp only [state]
        rw [show ((n : Int) + (2 * ((a + 1 : Nat) : Int) - n)) * (n - (2 * ((a + 1 : Nat) : Int) - n) + 2) =
          4 * (((n : Int) - a) * (a + 1)) by push_cast; ring]
        exact Int.mul_ediv_cancel_left _ (by norm_num)
      · exact ⟨state_mem ha, state_mem hb, (lower n a).symm, List.mem_map.2 ⟨a, List.mem_range.2 hb, rfl⟩⟩
    · rw [if_neg, if_neg h]
      rintro ⟨-, -, e, -⟩
      apply h
      have : (⟨0, 2, 0⟩ : SZ) + state n a = state n b := by
        rw [e, ← add_assoc]
        exact stay _
      rw [raise] at this
      exact (state_inj.1 this).symm

/-- C43: the operator of the magnetic number. -/
theorem C43_magnetic (n : Nat) :
    ∃ Z : OpT SZ K, szOp n = some Z ∧ SiteOp n 0 Z ∧
      ∀ a b, a ≤ n → b ≤ n → matEl Z (state n a) (state n b) = if a = b then ((2 * (a : K) - n) / 2) else 0 := by
  have hr : range2 (-(n : Int)) (n + 1) = (List.range (n + 1)).map fun k : Nat => -(n : Int) + 2 * (k : Int) :=
    range2_eq _ _ _ (by push_cast; omega)
  obtain ⟨T, h1, h2, h3⟩ := op_eq (K := K) n ⟨0, 0, 0⟩ rfl (states n) (fun q => (q.twos : K) / 2) (by
      intro q hq
      rw [stay]
      exact ⟨hq, hq⟩)
  refine ⟨T, ?_, h2, ?_⟩
  · rw [← h1]
    unfold szOp states
    rw [hr, List.map_map, List.map_map]
    congr 1
    funext T
    congr 1
    apply List.map_congr_left
    intro k _
    simp only [Function.comp, state]
    rw [show -(n : Int) + 2 * (k : Int) = 2 * (k : Int) - n by ring]
  · intro a b ha hb
    rw [h3]
    by_cases h : a = b
    · subst h
      rw [if_pos ⟨state_mem ha, state_mem hb, (stay _).symm, state_mem hb⟩, if_pos rfl]
      simp [state]
    · rw [if_neg, if_neg h]
      rintro ⟨-, -, e, -⟩
      rw [stay] at e
      exact h (state_inj.1 e)

/-- C43: the identity and the zero operator of the site. -/
theorem C43_identity (n : Nat) :
    ∃ I H : OpT SZ K, iOp n = some I ∧ hOp n = some H ∧ SiteOp n 0 I ∧ SiteOp n 0 H ∧ mat n I = 1 ∧ mat n H = 0 := by
  obtain ⟨T, h1, h2, h3⟩ := op_eq (K := K) n ⟨0, 0, 0⟩ rfl (states n) (fun _ => 1) (by
      intro q hq
      rw [stay]
      exact ⟨hq, hq⟩)
  obtain ⟨H, g1, g2, g3⟩ := op_eq (K := K) n ⟨0, 0, 0⟩ rfl [] (fun _ => 1) (by simp)
  refine ⟨T, H, ?_, ?_, h2, g2, ?_, ?_⟩
  · rw [← h1]
    unfold iOp
    rw [basis_eq, List.map_map]
    rfl
  · rw [← g1]
    unfold hOp
    obtain ⟨L, e1, -⟩ := siteZeros_eq (K := K) n ⟨0, 0, 0⟩ rfl
    rw [e1]
    simp [setEven]
  · ext a b
    have ha : (a : Nat) ≤ n := Nat.lt_succ_iff.1 a.2
    have hb : (b : Nat) ≤ n := Nat.lt_succ_iff.1 b.2
    simp only [mat]
    rw [h3, Matrix.one_apply]
    by_cases h : a = b
    · subst h
      rw [if_pos ⟨state_mem ha, state_mem hb, (stay _).symm, state_mem hb⟩, if_pos rfl]
    · rw [if_neg, if_neg h]
      rintro ⟨-, -, e, -⟩
      rw [stay] at e
      exact h (Fin.ext (state_inj.1 e))
  · ext a b
    simp only [mat]
    rw [g3]
    simp

/-! ### The spin algebra -/

/-- Two tridiagonal matrices with the same off-diagonal entries. -/
theorem ladder_products (n : Nat) (c : Nat → K) (h0 : c n = 0)
    (P M : Matrix (Fin (n + 1)) (Fin (n + 1)) K) (hP : ∀ a b, P a b = if (a : Nat) = b + 1 then c b else 0)
    (hM : ∀ a b, M a b = if (b : Nat) = a + 1 then c a else 0) :
    (∀ a b, (M * P) a b = if a = b then c a * c a else 0) ∧
    (∀ a b, (P * M) a b = if a = b then (if (a : Nat) = 0 then 0 else c (a - 1) * c (a - 1)) else 0) := by
  constructor
  · intro a b
    rw [Matrix.mul_apply]
    by_cases ha : (a : Nat) < n
    · rw [Finset.sum_eq_single (⟨a + 1, by omega⟩ : Fin (n + 1))]
      · rw [hM, hP]
        by_cases h : a = b
        · subst h; simp
        · have : ¬ ((a : Nat) = b) := fun e => h (Fin.ext e)
          simp [h, this]
      · intro k _ hk
        have : ¬ ((k : Nat) = a + 1) := fun e => hk (Fin.ext e)
        rw [hM, if_neg this, zero_mul]
      · simp
    · have hn : (a : Nat) = n := by have := a.2; omega
      rw [hn, h0]
      rw [Finset.sum_eq_zero]
      · simp
      · intro k _
        have : ¬ ((k : Nat) = a + 1) := by have := k.2; omega
        rw [hM, if_neg this, zero_mul]
  · intro a b
    rw [Matrix.mul_apply]
    by_cases ha : (a : Nat) = 0
    · rw [Finset.sum_eq_zero]
      · simp [ha]
      · intro k _
        have : ¬ ((a : Nat) = k + 1) := by omega
        rw [hP, if_neg this, zero_mul]
    · rw [Finset.sum_eq_single (⟨a - 1, by have := a.2; omega⟩ : Fin (n + 1))]
      · rw [hM, hP]
        have e1 : (a : Nat) = a - 1 + 1 := by omega
        rw [if_pos e1, if_neg ha]
        by_cases h : a = b
        · subst h; simp [← e1]
        · have : ¬ ((b : Nat) = a - 1 + 1) := fun e => h (Fin.ext (e1.trans e.symm))
          simp [h, this]
      · intro k _ hk
        have : ¬ ((a : Nat) = k + 1) := fun e => hk (Fin.ext (by simp; omega))
        rw [hP, if_neg this, zero_mul]
      · simp

/-- C43: the spin algebra.  `sqrt` is any function that squares to the identity on the non-negative integers. -/
theorem C43_algebra [CharZero K] (sqrt : Int → K) (hsqrt : ∀ m : Int, 0 ≤ m → sqrt m * sqrt m = (m : K)) (n : Nat) :
    ∃ P M Z : OpT SZ K, spOp sqrt n = some P ∧ smOp sqrt n = some M ∧ szOp n = some Z ∧
      mat n P * mat n M - mat n M * mat n P = 2 • mat n Z ∧
      mat n Z * mat n P - mat n P * mat n Z = mat n P ∧
      mat n Z * mat n M - mat n M * mat n Z = - mat n M ∧
      (1 / 2 : K) • (mat n P * mat n M + mat n M * mat n P) + mat n Z * mat n Z =
        ((n / 2 : K) * (n / 2 + 1)) • (1 : Matrix (Fin (n + 1)) (Fin (n + 1)) K) ∧
      (mat n P).transpose = mat n M := by
  obtain ⟨P, p1, p2, p3⟩ := C43_raising (K := K) sqrt n
  obtain ⟨M, m1, m2, m3⟩ := C43_lowering (K := K) sqrt n
  obtain ⟨Z, z1, z2, z3⟩ := C43_magnetic (K := K) n
  refine ⟨P, M, Z, p1, m1, z1, ?_⟩
  let c : Nat → K := fun k => sqrt (((n : Int) - k) * (k + 1))
  have hle : ∀ a : Fin (n + 1), (a : Nat) ≤ n := fun a => Nat.lt_succ_iff.1 a.2
  have hP : ∀ a b, mat n P a b = if (a : Nat) = b + 1 then c b else 0 := fun a b => p3 a b (hle a) (hle b)
  have hM : ∀ a b, mat n M a b = if (b : Nat) = a + 1 then c a else 0 := fun a b => m3 a b (hle a) (hle b)
  have hZ : mat n Z = Matrix.diagonal fun a : Fin (n + 1) => (2 * ((a : Nat) : K) - n) / 2 := by
    ext a b
    rw [Matrix.diagonal_apply]
    have := z3 a b (hle a) (hle b)
    simp only [mat, this, Fin.ext_iff]
  have hcc : ∀ k, k ≤ n → c k * c k = ((n : K) - k) * (k + 1) := by
    intro k hk
    have := hsqrt (((n : Int) - k) * (k + 1)) (mul_nonneg (by omega) (by omega))
    simp only [c, this]
    push_cast
    ring
  have h0 : c n = 0 := by
    have := hcc n le_rfl
    rw [sub_self, zero_mul] at this
    exact mul_self_eq_zero.1 this
  obtain ⟨hMP, hPM⟩ := ladder_products n c h0 (mat n P) (mat n M) hP hM
  have hMP' : mat n M * mat n P = Matrix.diagonal fun a : Fin (n + 1) => ((n : K) - (a : Nat)) * ((a : Nat) + 1) := by
    ext a b
    rw [hMP, Matrix.diagonal_apply, hcc a (hle a)]
  have hPM' : mat n P * mat n M = Matrix.diagonal fun a : Fin (n + 1) => ((n : K) - (a : Nat) + 1) * ((a : Nat) : K) := by
    ext a b
    rw [hPM, Matrix.diagonal_apply]
    by_cases ha : (a : Nat) = 0
    · simp [ha]
    · rw [if_neg ha, hcc (a - 1) (by have := hle a; omega)]
      have : (((a : Nat) - 1 : Nat) : K) = ((a : Nat) : K) - 1 := by
        rw [Nat.cast_sub (by omega)]; simp
      rw [this]
      by_cases h : a = b
      · rw [if_pos h, if_pos h]; ring
      · rw [if_neg h, if_neg h]
  refine ⟨?_, ?_, ?_, ?_, ?_⟩
  · rw [hMP', hPM', hZ]
    ext a b
    simp only [Matrix.sub_apply, Matrix.smul_apply, Matrix.diagonal_apply]
    by_cases h : a = b
    · simp only [h, if_true]; simp; ring
    · simp [h]
  · rw [hZ]
    ext a b
    rw [Matrix.sub_apply, Matrix.diagonal_mul, Matrix.mul_diagonal, hP]
    by_cases h : (a : Nat) = b + 1
    · rw [if_pos h, h]; push_cast; ring
    · rw [if_neg h]; ring
  · rw [hZ]
    ext a b
    rw [Matrix.sub_apply, Matrix.diagonal_mul, Matrix.mul_diagonal, Matrix.neg_apply, hM]
    by_cases h : (b : Nat) = a + 1
    · rw [if_pos h, h]; push_cast; ring
    · rw [if_neg h]; ring
  · rw [hMP', hPM', hZ]
    ext a b
    simp only [Matrix.add_apply, Matrix.smul_apply, Matrix.diagonal_apply, Matrix.diagonal_mul_diagonal, Matrix.one_apply]
    by_cases h : a = b
    · simp only [h, if_true, smul_eq_mul]; ring
    · simp [h]
  · ext a b
    rw [Matrix.transpose_apply, hP, hM]

/-- The spin algebra is not vacuous: over the real numbers there is a square root. -/
noncomputable example (n : Nat) := C43_algebra (K := ℝ) (fun m => Real.sqrt m)
  (fun m hm => Real.mul_self_sqrt (by exact_mod_cast hm)) n

/-! ### Products computed with the library -/

theorem basis_wf (n : Nat) : Dict.WF (basis n) := by
  unfold Dict.WF
  rw [basis_eq, List.map_map, show (Prod.fst ∘ fun q : SZ => (q, 1)) = id from rfl, List.map_id]
  exact states_nodup n

theorem isFermion_states {n : Nat} {q : SZ} (h : q ∈ states n) : SZ.isFermion q = false := by
  obtain ⟨k, -, rfl⟩ := mem_states.1 h
  rfl

theorem mem_states_of_get? {n : Nat} {q : SZ} {s : Nat} (h : Dict.get? (basis n) q = some s) : q ∈ states n := by
  by_contra hq
  have : Dict.get? (basis n) q = none := by
    rw [Dict.get?_eq_none_iff, basis_eq, List.map_map, show (Prod.fst ∘ fun q : SZ => (q, 1)) = id from rfl, List.map_id]
    exact hq
  rw [this] at h
  cases h

theorem SiteOp.operatorOn {n : Nat} {dq : SZ} {A : OpT SZ K} (h : SiteOp n dq A) : OperatorOn SZ.isFermion [basis n] A where
  odd := by rw [h.odd]; intro b hb; simp at hb
  even := h.even
  oddParity := by rw [h.odd]; intro b hb; simp at hb
  evenParity := by
    intro b hb
    have := h.even b hb
    generalize b.1 = q at this
    generalize b.2.shape = s at this
    cases this with
    | cons h1 h2 => cases h2 with
      | cons h2 h3 => cases h3 with
        | nil => simp [fermParity, isFermion_states (mem_states_of_get? h1), isFermion_states (mem_states_of_get? h2)]

theorem list_sum_range (f : Nat → K) (n : Nat) : ((List.range n).map f).sum = ∑ i ∈ Finset.range n, f i := by
  induction n with
  | zero => rfl
  | succ n ih => rw [List.range_succ, Finset.sum_range_succ, ← ih]; simp

/-- C43: the library's `A @ B` of nonzero operators on the site is the product of the matrices. -/
theorem C43_matmul (n : Nat) {p q : SZ} (A B : OpT SZ K) (hA : SiteOp n p A) (hB : SiteOp n q B) (nA : A.even ≠ [])
    (nB : B.even ≠ []) :
    ∃ R, OpT.matmul SZ.isFermion A B = some R ∧ mat n R = mat n A * mat n B := by
  have hw : ∀ b ∈ [basis n], Dict.WF b := by simpa using basis_wf n
  obtain ⟨R, h1, h2, h3⟩ := C49_composition SZ.isFermion [basis n] hw A B hA.operatorOn hB.operatorOn
  have dA : A.ndim = 2 := by
    unfold OpT.ndim
    rw [hA.odd, ndim_eq hA.even nA]
    simp [SpT.ndim]
  have dB : B.ndim = 2 := by
    unfold OpT.ndim
    rw [hB.odd, ndim_eq hB.even nB]
    simp [SpT.ndim]
  refine ⟨R, ?_, ?_⟩
  · rw [← h1]
    unfold OpT.matmul OpT.tensordot
    rw [dA, dB]
    rfl
  · ext a b
    obtain ⟨e1, e2⟩ := h3 [(state n a, 0)] [(state n b, 0)] rfl rfl
    simp only [List.cons_append, List.nil_append] at e1 e2
    rw [Matrix.mul_apply]
    simp only [mat, matEl]
    rw [e1, e2, hA.odd, hB.odd]
    simp only [entry_nil, zero_mul, mul_zero, add_zero, zero_add]
    have hl : legIndices [basis n] = (List.range (n + 1)).map fun k => [(state n k, 0)] := by
      have h1 : ∀ s : List (SZ × Nat), s.flatMap (fun x => [[x]]) = s.map fun x => [x] := by
        intro s
        induction s with
        | nil => rfl
        | cons a t ih => rw [List.flatMap_cons, ih]; rfl
      have h2 : ∀ s : List SZ, (s.map fun q => (q, 1)).flatMap (fun p : SZ × Nat => (List.range p.2).map fun i => (p.1, i)) =
          s.map fun q => (q, 0) := by
        intro s
        induction s with
        | nil => rfl
        | cons a t ih => rw [List.map_cons, List.flatMap_cons, ih]; rfl
      have h3 : legBasis (basis n) = (states n).map fun q => (q, 0) := by
        rw [basis_eq]; exact h2 _
      simp only [legIndices, List.map_cons, List.map_nil, h3, cart, h1]
      simp [states, Function.comp_def]
    rw [hl, List.map_map, sum_map_zero', zero_add,
      Fin.sum_univ_eq_sum_range (fun k => entry A.even [(state n a, 0), (state n k, 0)] * entry B.even [(state n k, 0), (state n b, 0)]),
      ← list_sum_range, List.map_map]
    · simp only [Function.comp_def, List.cons_append, List.nil_append]
    · intros; rfl

/-! ### The Hamiltonian -/

section
variable [DecidableEq K] {R : Type} [Ring R] [Algebra K R]

/-- The coupling of the spins of two sites: half of `S+ S- + S- S+`, plus `Sz Sz`. -/
def coupling (K : Type) {R : Type} [Field K] [Ring R] [Algebra K R] (v : Name → List Int → R) (i j : Int) : R :=
  (1 / 2 : K) • (v .sp [i] * v .sm [j] + v .sm [i] * v .sp [j]) + v .sz [i] * v .sz [j]

/-- One term `c * x_i * y_j`. -/
theorem term_eval (small : K → Bool) (v : Name → List Int → R) (c : K) (x y : Name) (i j : Int) :
    ∃ t : Option (OpString Name SZ K), ((OpVal.mul small (.num c) (.elem (sym x i))).bind fun t => OpVal.mul small t (.elem (sym y j))) =
        some (OpVal.ofOpt t) ∧ (∀ s, t = some s → s.ops = [sym x i, sym y j]) ∧
      evalOpt v t = c • (v x [i] * v y [j]) := by
  by_cases h : c = 0
  · refine ⟨none, ?_, by simp, ?_⟩
    · simp [h, OpVal.mul, OpVal.mulL, OpVal.mulR, OpVal.elemNum, OpVal.ofOpt]
    · simp [h, evalOpt]
  · refine ⟨some (OpString.mk' [{ (sym x i : OpElement Name SZ K) with factor := 1 * c }, sym y j]), ?_, ?_, ?_⟩
    · simp [h, OpVal.mul, OpVal.mulL, OpVal.mulR, OpVal.elemNum, OpVal.ofOpt, sym]
    · rintro s ⟨⟩
      simp [OpString.mk', OpElement.abs, sym]
    · simp only [evalOpt, Option.map_some, Option.getD_some, eval_mk']
      simp [evalElem, sym, Algebra.smul_def, mul_assoc]

/-- The label of the symbol of a spin operator. -/
def spinLabel : Name → Option SZ
  | .sp => some ⟨0, 2, 0⟩
  | .sm => some ⟨0, -2, 0⟩
  | .sz => some 0
  | _ => none

/-- The terms before sorting. -/
theorem terms_eval (small : K → Bool) (topology : List (Int × Int × K)) (v : Name → List Int → R) (hne : ∀ t ∈ topology, t.1 ≠ t.2.1) :
    ∃ m : List (List (OpVal Name SZ K)), topology.mapM (fun t => bondTerms small t.1 t.2.1 t.2.2) = some m ∧
      ∃ s : List (Option (OpString Name SZ K)), asStrings m.flatten = some s ∧
        (∀ x ∈ s.filterMap id, ∃ a b, ∃ t ∈ topology, (spinLabel a).isSome = true ∧ (spinLabel b) = (spinLabel a).map (fun q => -q) ∧ x.ops = [sym a t.1, sym b t.2.1]) ∧
        (s.map (evalOpt v)).sum = (topology.map fun t => t.2.2 • coupling K v t.1 t.2.1).sum := by
  induction topology with
  | nil => exact ⟨[], rfl, [], rfl, by simp, by simp⟩
  | cons t l ih =>
    obtain ⟨m, h1, s, h2, h3, h4⟩ := ih (fun t ht => hne t (by simp [ht]))
    have hij := hne t (by simp)
    obtain ⟨a, a1, a2, a3⟩ := term_eval small v (1 / 2 * t.2.2) .sp .sm t.1 t.2.1
    obtain ⟨b, b1, b2, b3⟩ := term_eval small v (1 / 2 * t.2.2) .sm .sp t.1 t.2.1
    obtain ⟨c, c1, c2, c3⟩ := term_eval small v t.2.2 .sz .sz t.1 t.2.1
    have hb : bondTerms small t.1 t.2.1 t.2.2 = some [OpVal.ofOpt a, OpVal.ofOpt b, OpVal.ofOpt c] := by
      unfold bondTerms
      rw [if_neg hij]
      simp only [a1, b1, c1, Option.bind_some, Option.map_some]
    refine ⟨[OpVal.ofOpt a, OpVal.ofOpt b, OpVal.ofOpt c] :: m, ?_, a :: b :: c :: s, ?_, ?_, ?_⟩
    · simp [List.mapM_cons, hb, h1]
    · unfold asStrings at h2 ⊢
      simp only [List.flatten_cons, List.cons_append, List.nil_append, List.mapM_cons, h2]
      cases a <;> cases b <;> cases c <;> simp [OpVal.ofOpt]
    · intro x hx
      simp only [List.mem_filterMap, List.mem_cons, id] at hx
      obtain ⟨y, hy | hy | hy | hy, rfl⟩ := hx
      · exact ⟨_, _, t, by simp, rfl, rfl, a2 x hy.symm⟩
      · exact ⟨_, _, t, by simp, rfl, rfl, b2 x hy.symm⟩
      · exact ⟨_, _, t, by simp, rfl, rfl, c2 x hy.symm⟩
      · obtain ⟨p, q, t', ht', h⟩ := h3 x (List.mem_filterMap.2 ⟨_, hy, rfl⟩)
        exact ⟨p, q, t', by simp [ht'], h⟩
    · simp only [List.map_cons, List.sum_cons, h4, a3, b3, c3, coupling]
      simp only [smul_add, smul_smul]
      rw [mul_comm (1 / 2 : K)]
      abel

/-- C43: the expression built by `build_mpo` is the sum over the bonds of coupling constant times spin coupling, for every
interpretation of the symbols in which operators of different sites commute.  Each string is ordered by site.  The construction
fails exactly when a bond connects a site with itself. -/
theorem C43_hamiltonian (small : K → Bool) (topology : List (Int × Int × K)) (v : Name → List Int → R)
    (hcomm : ∀ x y i j, i ≠ j → v x [i] * v y [j] = v y [j] * v x [i]) (hne : ∀ t ∈ topology, t.1 ≠ t.2.1) :
    ∃ l, hExpr small topology = some l ∧
      (l.map (evalString v)).sum = (topology.map fun t => t.2.2 • coupling K v t.1 t.2.1).sum ∧
      ∀ s ∈ l, s.ops.Pairwise fun x y => tupleLe x.site y.site = true := by
  obtain ⟨m, h1, s, h2, h3, h4⟩ := terms_eval small topology v hne
  refine ⟨OpSum.sort false s, ?_, ?_, ?_⟩
  · unfold hExpr
    rw [h1, Option.bind_some, h2, Option.map_some]
  · rw [← h4]
    unfold OpSum.sort
    rw [List.map_map]
    have hs : ∀ x ∈ s.filterMap id, evalString v (x.sort false) = evalString v x := by
      intro x hx
      obtain ⟨a, b, t, ht, -, -, hx'⟩ := h3 x hx
      have hij := hne t ht
      apply C27_boson
      intro y hy z hz hyz
      rw [hx'] at hy hz
      simp only [List.mem_cons, List.not_mem_nil, or_false] at hy hz
      have e : ∀ (p : Name) (k : Int), evalElem v (sym p k : OpElement Name SZ K) = v p [k] := by
        intro p k
        simp [evalElem, sym]
      rcases hy with rfl | rfl <;> rcases hz with rfl | rfl
      · exact absurd rfl hyz
      · rw [e, e]; exact hcomm _ _ _ _ hij
      · rw [e, e]; exact hcomm _ _ _ _ hij.symm
      · exact absurd rfl hyz
    rw [List.map_congr_left (f := evalString v ∘ OpString.sort false) (g := evalString v) (fun x hx => hs x hx)]
    clear h2 h3 h4 hs h1
    induction s with
    | nil => rfl
    | cons a t ih => cases a <;> simp [evalOpt] <;> exact ih
  · intro x hx
    obtain ⟨y, -, rfl⟩ := List.mem_map.1 hx
    exact (C27_sorted false y).2

/-- C43: a bond from a site to itself is rejected. -/
theorem C43_self_bond (small : K → Bool) (topology : List (Int × Int × K)) (t : Int × Int × K) (ht : t ∈ topology)
    (h : t.1 = t.2.1) : hExpr small topology = none := by
  have : topology.mapM (fun t => bondTerms small t.1 t.2.1 t.2.2) = none := by
    induction topology with
    | nil => simp at ht
    | cons a l ih =>
      rcases List.mem_cons.1 ht with rfl | ht
      · simp [List.mapM_cons, bondTerms, h]
      · rw [List.mapM_cons, ih ht]
        cases bondTerms small a.1 a.2.1 a.2.2 <;> rfl
  unfold hExpr
  rw [this]
  rfl

end

/-- A case of `C43_hamiltonian`: three sites in a ring; the interpretation takes values in a commutative ring. -/
example : ∃ l, hExpr (fun _ : ℚ => false) [(0, 1, 1), (1, 2, 3), (2, 0, -2)] = some l ∧
    (l.map (evalString fun (_ : Name) (s : List Int) => ((s.headD 0 : Int) : ℚ))).sum = 12 := by
  obtain ⟨l, h1, h2, -⟩ := C43_hamiltonian (R := ℚ) (fun _ : ℚ => false) [(0, 1, 1), (1, 2, 3), (2, 0, -2)]
    (fun _ s => ((s.headD 0 : Int) : ℚ)) (fun _ _ _ _ _ => mul_comm _ _) (by decide)
  refine ⟨l, h1, h2.trans ?_⟩
  simp [coupling]
  norm_num

/-- Spin one half: the raising operator has a single entry 1, between the two states. -/
example : ∃ P : OpT SZ ℚ, spOp (fun m => (m : ℚ)) 1 = some P ∧ mat 1 P = !![0, 0; 1, 0] := by
  obtain ⟨P, h1, -, h3⟩ := C43_raising (K := ℚ) (fun m => (m : ℚ)) 1
  refine ⟨P, h1, ?_⟩
  ext a b
  simp only [mat]
  rw [h3 a b (by omega) (by omega)]
  fin_cases a <;> fin_cases b <;> simp

end Verif.Heisenberg
