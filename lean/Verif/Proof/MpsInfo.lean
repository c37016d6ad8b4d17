import Verif.Model.MpsInfo
import Verif.Spec.MpsInfo
import Verif.Thm.BondInfo
import Verif.Proof.Index
import Verif.Proof.Ladder
import Mathlib.Tactic.Ring
import Mathlib.Tactic.Abel

/-! Lemmas about the bonds of a state: how many configurations lead to a label. -/

set_option linter.unusedSectionVars false

namespace Verif
section
variable {Q : Type} [DecidableEq Q] [AddCommGroup Q]
open BondInfo

theorem count_as_sum {a : BondInfo Q} (ha : Dict.WF a) (q : Q) :
    Counter.count a q = (a.map fun x => if x.1 = q then x.2 else 0).sum := by
  induction a with
  | nil => simp
  | cons x t ih =>
    have ht : Dict.WF t := (List.nodup_cons.1 ha).2
    have hn : x.1 ∉ t.map Prod.fst := (List.nodup_cons.1 ha).1
    rw [List.map_cons, List.sum_cons, ← ih ht]
    by_cases h : x.1 = q
    · subst h
      rw [if_pos rfl, Counter.count_of_not_mem hn, Nat.add_zero, Counter.count_of_mem ha (n := x.2) List.mem_cons_self]
    · rw [if_neg h, Nat.zero_add]
      obtain ⟨k, v⟩ := x
      simp only [Counter.count, Dict.get?_cons, if_neg (show ¬k = q from h)]

theorem legBasis_sum_label {M : Type} [AddCommMonoid M] (b : BondInfo Q) (f : Q → M) :
    ((legBasis b).map fun z => f z.1).sum = (b.map fun y => y.2 • f y.1).sum := by
  unfold legBasis
  rw [sum_flatMap']
  apply sum_map_congr'
  intro y _
  simp [List.map_map, Function.comp_def]

theorem count_product {a b : BondInfo Q} (ha : Dict.WF a) (q : Q) :
    Counter.count (tensorProduct a b none) q = ((legBasis b).map fun z => Counter.count a (q - z.1)).sum := by
  have h : ∀ z : Q, Counter.count a (q - z) = (a.map fun x => if x.1 + z = q then x.2 else 0).sum := by
    intro z
    rw [count_as_sum ha]
    apply sum_map_congr'
    intro x _
    simp only [eq_sub_iff_add_eq]
  rw [legBasis_sum_label b fun z => Counter.count a (q - z), C05_count, if_pos (by simp)]
  rw [List.flatMap, List.sum_flatten, List.map_map]
  simp only [Function.comp_def]
  rw [sum_comm']
  apply sum_map_congr'
  intro y _
  rw [h, smul_eq_mul, ← sum_map_mul_left']
  apply sum_map_congr'
  intro x _
  by_cases hx : x.1 + y.1 = q
  · simp [hx, Nat.mul_comm]
  · simp [hx]

theorem count_product_neg {a b : BondInfo Q} (ha : Dict.WF a) (hb : Dict.WF b) (q : Q) :
    Counter.count (tensorProduct (negKeys b) a none) q = ((legBasis b).map fun z => Counter.count a (q + z.1)).sum := by
  have h : ∀ z : Q, Counter.count a (q + z) = (a.map fun x => if -z + x.1 = q then x.2 else 0).sum := by
    intro z
    rw [count_as_sum ha]
    apply sum_map_congr'
    intro x _
    congr 1
    rw [eq_iff_iff, neg_add_eq_iff_eq_add, add_comm]
  rw [legBasis_sum_label b fun z => Counter.count a (q + z), C05_count, if_pos (by simp), negKeys_eq b hb]
  rw [List.flatMap, List.sum_flatten, List.map_map, List.map_map]
  simp only [Function.comp_def]
  apply sum_map_congr'
  intro y _
  rw [h, smul_eq_mul, ← sum_map_mul_left']
  apply sum_map_congr'
  intro x _
  by_cases hx : -y.1 + x.1 = q
  · simp [hx]
  · simp [hx]

theorem legIndices_cons_sum_nat {M : Type} [AddCommMonoid M] (b : BondInfo Q) (legs : List (BondInfo Q)) (f : List (Q × Nat) → M) :
    ((legIndices (b :: legs)).map f).sum = ((legBasis b).map fun x => ((legIndices legs).map fun p => f (x :: p)).sum).sum := by
  unfold legIndices
  rw [List.map_cons, cart, sum_flatMap']
  simp only [List.map_map]
  rfl

theorem totalCharge_cons (x : Q × Nat) (l : List (Q × Nat)) : totalCharge (x :: l) = x.1 + totalCharge l := by
  simp [totalCharge]

theorem totalCharge_append (l m : List (Q × Nat)) : totalCharge (l ++ m) = totalCharge l + totalCharge m := by
  simp [totalCharge]

@[simp] theorem totalCharge_nil : totalCharge ([] : List (Q × Nat)) = 0 := rfl

theorem count_fold {l : BondInfo Q} (hl : Dict.WF l) (bs : List (BondInfo Q)) (q : Q) :
    Counter.count (bs.foldl (fun a b => tensorProduct a b none) l) q =
      ((legIndices bs).map fun c => Counter.count l (q - totalCharge c)).sum := by
  induction bs generalizing l with
  | nil => simp [legIndices, cart]
  | cons b bs ih =>
    rw [List.foldl_cons, ih (C05_wf _ _ _), legIndices_cons_sum_nat, sum_comm']
    apply sum_map_congr'
    intro c _
    rw [count_product hl]
    apply sum_map_congr'
    intro z _
    rw [totalCharge_cons]
    congr 1
    abel

theorem leftFull_getD (l : BondInfo Q) (bs : List (BondInfo Q)) (d : Nat) (hd : d ≤ bs.length) :
    (MpsInfo.leftFull l bs).getD d [] = (bs.take d).foldl (fun a b => tensorProduct a b none) l := by
  induction bs generalizing l d with
  | nil =>
    have : d = 0 := by simpa using hd
    subst this
    rfl
  | cons b bs ih =>
    cases d with
    | zero => rfl
    | succ d =>
      rw [MpsInfo.leftFull, List.getD_cons_succ, ih _ d (by simpa using hd), List.take_succ_cons, List.foldl_cons]

theorem leftFull_length (l : BondInfo Q) (bs : List (BondInfo Q)) : (MpsInfo.leftFull l bs).length = bs.length + 1 := by
  induction bs generalizing l with
  | nil => rfl
  | cons b bs ih => simp [MpsInfo.leftFull, ih]

theorem rightFull_length (t : Q) (bs : List (BondInfo Q)) : (MpsInfo.rightFull t bs).length = bs.length + 1 := by
  induction bs with
  | nil => rfl
  | cons b bs ih => simp [MpsInfo.rightFull, ih]

theorem rightFull_getD (t : Q) (bs : List (BondInfo Q)) (d : Nat) (hd : d ≤ bs.length) :
    (MpsInfo.rightFull t bs).getD d [] = (MpsInfo.rightFull t (bs.drop d)).headD [] := by
  induction bs generalizing d with
  | nil =>
    have : d = 0 := by simpa using hd
    subst this
    rfl
  | cons b bs ih =>
    cases d with
    | zero => rfl
    | succ d => rw [MpsInfo.rightFull, List.getD_cons_succ, ih d (by simpa using hd), List.drop_succ_cons]

theorem rightFull_head_wf (t : Q) (bs : List (BondInfo Q)) : Dict.WF ((MpsInfo.rightFull t bs).headD []) := by
  cases bs with
  | nil => simp [MpsInfo.rightFull, Dict.WF]
  | cons b bs => exact C05_wf _ _ _

theorem count_single (v q : Q) : Counter.count ([(v, 1)] : BondInfo Q) q = if v = q then 1 else 0 := by
  by_cases h : v = q <;> simp [Counter.count, Dict.get?, h]

theorem count_rightFull (t : Q) (bs : List (BondInfo Q)) (hb : ∀ b ∈ bs, Dict.WF b) (q : Q) :
    Counter.count ((MpsInfo.rightFull t bs).headD []) q = ((legIndices bs).map fun c => if q + totalCharge c = t then 1 else 0).sum := by
  induction bs generalizing q with
  | nil => simp [legIndices, cart, MpsInfo.rightFull, count_single, eq_comm]
  | cons b bs ih =>
    rw [MpsInfo.rightFull, List.headD_cons, count_product_neg (rightFull_head_wf t bs) (hb b List.mem_cons_self),
      legIndices_cons_sum_nat]
    apply sum_map_congr'
    intro z _
    rw [ih fun c hc => hb c (List.mem_cons_of_mem _ hc)]
    apply sum_map_congr'
    intro c _
    rw [totalCharge_cons, add_assoc]

theorem length_filter_ones {α : Type} (l : List α) (p : α → Bool) : (l.filter p).length = (l.map fun x => if p x then 1 else 0).sum := by
  induction l with
  | nil => rfl
  | cons a l ih => by_cases h : p a <;> simp [h, ih, Nat.add_comm]

theorem count_left {vacuum : Q} {basis : List (BondInfo Q)} {d : Nat} (hd : d ≤ basis.length) (q : Q) :
    Counter.count ((MpsInfo.leftFull [(vacuum, 1)] basis).getD d []) q = (leftStates vacuum basis d q).length := by
  rw [leftFull_getD _ _ _ hd, count_fold (by simp [Dict.WF]), leftStates, length_filter_ones]
  apply sum_map_congr'
  intro c _
  rw [count_single]
  simp [eq_sub_iff_add_eq]

theorem count_right {target : Q} {basis : List (BondInfo Q)} (hb : ∀ b ∈ basis, Dict.WF b) {d : Nat} (hd : d ≤ basis.length) (q : Q) :
    Counter.count ((MpsInfo.rightFull target basis).getD d []) q = (rightStates target basis d q).length := by
  rw [rightFull_getD _ _ _ hd, count_rightFull _ _ (fun b h => hb b (List.mem_of_mem_drop h)), rightStates, length_filter_ones]
  apply sum_map_congr'
  intro c _
  simp

/-! ### Positive multiplicities -/

theorem product_positive {a b : BondInfo Q} (ha : ∀ x ∈ a, 0 < x.2) (hb : ∀ x ∈ b, 0 < x.2) :
    ∀ x ∈ tensorProduct a b none, 0 < x.2 := by
  have set_pos : ∀ (r : BondInfo Q) (k : Q) (n : Nat), (∀ x ∈ r, 0 < x.2) → 0 < n → ∀ x ∈ Dict.set r k n, 0 < x.2 := by
    intro r k n hr hn
    induction r with
    | nil => simpa [Dict.set] using hn
    | cons y r ih =>
      rw [Dict.set]
      split_ifs
      · intro x hx
        rcases List.mem_cons.1 hx with rfl | hx
        · exact hn
        · exact hr x (List.mem_cons_of_mem _ hx)
      · intro x hx
        rcases List.mem_cons.1 hx with rfl | hx
        · exact hr _ List.mem_cons_self
        · exact ih (fun z hz => hr z (List.mem_cons_of_mem _ hz)) x hx
  have inner : ∀ (k : Q) (v : Nat), 0 < v → ∀ (b r : BondInfo Q), (∀ x ∈ b, 0 < x.2) → (∀ x ∈ r, 0 < x.2) →
      ∀ x ∈ b.foldl (fun quanta (y : Q × Nat) => Counter.incr quanta (k + y.1) (v * y.2)) r, 0 < x.2 := by
    intro k v hv b
    induction b with
    | nil => intro r _ hr; exact hr
    | cons y b ih =>
      intro r hb hr
      refine ih _ (fun z hz => hb z (List.mem_cons_of_mem _ hz)) ?_
      unfold Counter.incr
      exact set_pos _ _ _ hr (Nat.add_pos_right _ (Nat.mul_pos hv (hb y List.mem_cons_self)))
  have outer : ∀ (a r : BondInfo Q), (∀ x ∈ a, 0 < x.2) → (∀ x ∈ r, 0 < x.2) →
      ∀ x ∈ a.foldl (fun quanta (x : Q × Nat) => b.foldl (fun quanta (y : Q × Nat) => Counter.incr quanta (x.1 + y.1) (x.2 * y.2)) quanta) r, 0 < x.2 := by
    intro a
    induction a with
    | nil => intro r _ hr; exact hr
    | cons y a ih =>
      intro r ha hr
      exact ih _ (fun z hz => ha z (List.mem_cons_of_mem _ hz)) (inner _ _ (ha y List.mem_cons_self) b r hb hr)
  unfold tensorProduct
  simpa using outer a [] ha (by simp)

theorem neg_positive {b : BondInfo Q} (hw : Dict.WF b) (hb : ∀ x ∈ b, 0 < x.2) : ∀ x ∈ negKeys b, 0 < x.2 := by
  rw [negKeys_eq b hw]
  intro x hx
  obtain ⟨y, hy, rfl⟩ := List.mem_map.1 hx
  exact hb y hy

theorem product_good {a b : BondInfo Q} (ha : GoodBond a) (hb : GoodBond b) : GoodBond (tensorProduct a b none) :=
  ⟨C05_wf _ _ _, product_positive ha.2 hb.2⟩

theorem neg_good {b : BondInfo Q} (hb : GoodBond b) : GoodBond (negKeys b) := by
  refine ⟨?_, neg_positive hb.1 hb.2⟩
  rw [negKeys_eq b hb.1]
  unfold Dict.WF
  rw [List.map_map]
  have : (Prod.fst ∘ fun x : Q × Nat => (-x.1, x.2)) = (fun q => -q) ∘ Prod.fst := rfl
  rw [this, ← List.map_map]
  exact List.Nodup.map neg_injective hb.1

theorem good_single (v : Q) : GoodBond ([(v, 1)] : BondInfo Q) := ⟨by simp [Dict.WF], by simp⟩

theorem fold_good {l : BondInfo Q} (hl : GoodBond l) (bs : List (BondInfo Q)) (hb : ∀ b ∈ bs, GoodBond b) :
    GoodBond (bs.foldl (fun a b => tensorProduct a b none) l) := by
  induction bs generalizing l with
  | nil => exact hl
  | cons b bs ih => exact ih (product_good hl (hb b List.mem_cons_self)) fun c hc => hb c (List.mem_cons_of_mem _ hc)

theorem right_good (t : Q) (bs : List (BondInfo Q)) (hb : ∀ b ∈ bs, GoodBond b) : GoodBond ((MpsInfo.rightFull t bs).headD []) := by
  induction bs with
  | nil => exact good_single t
  | cons b bs ih => exact product_good (neg_good (hb b List.mem_cons_self)) (ih fun c hc => hb c (List.mem_cons_of_mem _ hc))

theorem filter_good {a b : BondInfo Q} (ha : GoodBond a) (hb : GoodBond b) : GoodBond (BondInfo.filter a b) := by
  refine ⟨(C06_wf a b).2.2.2, fun x hx => ?_⟩
  have h := Dict.get?_of_mem (C06_wf a b).2.2.2 hx
  rw [C06_filter_get a b ha.1] at h
  cases h1 : Dict.get? a x.1 with
  | none => rw [h1] at h; simp at h
  | some v =>
    cases h2 : Dict.get? b x.1 with
    | none => rw [h1, h2] at h; simp at h
    | some w =>
      rw [h1, h2] at h
      simp only [Option.some.injEq] at h
      have p1 := ha.2 _ (Dict.mem_of_get? h1)
      have p2 := hb.2 _ (Dict.mem_of_get? h2)
      simp only at p1 p2
      omega

theorem zipWith_getD {α : Type} (f : α → α → α) (e : α) (l m : List α) (d : Nat) (h : d < l.length) (h' : d < m.length) :
    (List.zipWith f l m).getD d e = f (l.getD d e) (m.getD d e) := by
  simp [List.getD_eq_getElem?_getD, List.getElem?_zipWith, List.getElem?_eq_getElem h, List.getElem?_eq_getElem h']

end
end Verif
