import Verif.Model.Fermion
import Verif.Spec.Fermion
import Verif.Proof.Index
import Mathlib.Algebra.BigOperators.Group.List.Lemmas
import Mathlib.Algebra.Ring.Parity
import Mathlib.Tactic.Ring
import Mathlib.Tactic.Abel

/-! Signs of reorderings: products over pairs of a list. -/

set_option linter.unusedSectionVars false

namespace Verif
variable {α β : Type}

/-- Product of `f x y` over all pairs `x` before `y` of the list. -/
def pairProd (f : α → α → Int) : List α → Int
  | [] => 1
  | x :: t => (t.map (f x)).prod * pairProd f t

theorem pairProd_append (f : α → α → Int) (l m : List α) :
    pairProd f (l ++ m) = pairProd f l * pairProd f m * (l.map fun x => (m.map (f x)).prod).prod := by
  induction l with
  | nil => simp [pairProd]
  | cons x t ih =>
    simp only [List.cons_append, pairProd, ih, List.map_append, List.prod_append, List.map_cons, List.prod_cons]
    ring

theorem pairProd_map (f : β → β → Int) (g : α → β) (l : List α) :
    pairProd f (l.map g) = pairProd (fun x y => f (g x) (g y)) l := by
  induction l with
  | nil => rfl
  | cons x t ih => simp only [List.map_cons, pairProd, ih, List.map_map]; rfl

theorem prod_map_mul' (l : List α) (f g : α → Int) : (l.map fun x => f x * g x).prod = (l.map f).prod * (l.map g).prod := by
  induction l with
  | nil => simp
  | cons x t ih => simp only [List.map_cons, List.prod_cons, ih]; ring

theorem pairProd_mul (f g : α → α → Int) (l : List α) :
    pairProd (fun x y => f x y * g x y) l = pairProd f l * pairProd g l := by
  induction l with
  | nil => rfl
  | cons x t ih =>
    simp only [pairProd, ih]
    rw [prod_map_mul' t (f x) (g x)]
    ring

theorem pairProd_congr {f g : α → α → Int} {l : List α} (h : l.Pairwise fun x y => f x y = g x y) :
    pairProd f l = pairProd g l := by
  induction l with
  | nil => rfl
  | cons x t ih =>
    rw [List.pairwise_cons] at h
    simp only [pairProd, ih h.2]
    congr 2
    exact List.map_congr_left h.1

theorem pairProd_perm {f : α → α → Int} {l m : List α} (hp : l.Perm m) (hnd : l.Nodup)
    (hs : ∀ x ∈ l, ∀ y ∈ l, x ≠ y → f x y = f y x) : pairProd f l = pairProd f m := by
  induction hp with
  | nil => rfl
  | cons x h ih =>
    rw [List.nodup_cons] at hnd
    simp only [pairProd]
    rw [ih hnd.2 (fun a ha b hb => hs a (List.mem_cons_of_mem _ ha) b (List.mem_cons_of_mem _ hb)), (h.map (f x)).prod_eq]
  | swap x y t =>
    simp only [pairProd, List.map_cons, List.prod_cons]
    have : y ≠ x := by simp at hnd; tauto
    rw [hs y (by simp) x (by simp) this]
    ring
  | trans h1 h2 ih1 ih2 =>
    rw [ih1 hnd hs, ih2 (h1.nodup_iff.1 hnd)]
    intro x hx y hy
    exact hs x (h1.mem_iff.2 hx) y (h1.mem_iff.2 hy)

theorem prod_eq_one' (l : List α) (f : α → Int) (h : ∀ x ∈ l, f x = 1) : (l.map f).prod = 1 := by
  induction l with
  | nil => rfl
  | cons x t ih =>
    simp only [List.map_cons, List.prod_cons]
    rw [h x List.mem_cons_self, ih fun y hy => h y (List.mem_cons_of_mem _ hy), one_mul]

theorem pairProd_reverse (f : α → α → Int) (l : List α) : pairProd f l.reverse = pairProd (fun x y => f y x) l := by
  induction l with
  | nil => rfl
  | cons x t ih =>
    rw [List.reverse_cons, pairProd_append, ih]
    simp only [pairProd, List.map_nil, List.prod_nil, List.map_cons, List.prod_cons, mul_one]
    rw [(List.reverse_perm t |>.map fun y => f y x).prod_eq]
    ring

theorem pairProd_one {f : α → α → Int} {l : List α} (h : l.Pairwise fun x y => f x y = 1) : pairProd f l = 1 := by
  rw [pairProd_congr (g := fun _ _ => 1) h]
  induction l with
  | nil => rfl
  | cons x t ih =>
    rw [List.pairwise_cons] at h
    simp only [pairProd]
    rw [ih h.2]
    simp

/-! ### The sign of a reordering -/

/-- Contribution of two legs, the first standing before the second. -/
def swapSign (odd : List Bool) (x y : Nat) : Int :=
  if odd.getD x false && odd.getD y false && decide (y < x) then -1 else 1

theorem prod_swapSign (odd : List Bool) (x : Nat) (t : List Nat) :
    (t.map (swapSign odd x)).prod =
      (-1) ^ (t.filter fun y => odd.getD x false && odd.getD y false && decide (y < x)).length := by
  induction t with
  | nil => rfl
  | cons y t ih =>
    simp only [List.map_cons, List.prod_cons, ih, List.filter_cons, swapSign]
    split_ifs
    · rw [List.length_cons, pow_succ]; ring
    · ring

theorem reorderSign_eq (odd : List Bool) (l : List Nat) : reorderSign odd l = pairProd (swapSign odd) l := by
  unfold reorderSign
  induction l with
  | nil => rfl
  | cons x t ih =>
    simp only [oddSwaps, pow_add, ih, pairProd, prod_swapSign]

theorem swapSign_mul_self (odd : List Bool) (x y : Nat) : swapSign odd x y * swapSign odd x y = 1 := by
  unfold swapSign; split_ifs <;> rfl

theorem reorderSign_sq (odd : List Bool) (l : List Nat) : reorderSign odd l * reorderSign odd l = 1 := by
  unfold reorderSign
  rw [← mul_pow]
  simp

theorem reorderSign_cases (odd : List Bool) (l : List Nat) : reorderSign odd l = 1 ∨ reorderSign odd l = -1 := by
  unfold reorderSign
  exact neg_one_pow_eq_or Int _

theorem pairProd_sorted (odd : List Bool) {l : List Nat} (h : l.Pairwise (· < ·)) : pairProd (swapSign odd) l = 1 := by
  apply pairProd_one
  refine h.imp ?_
  intro x y hxy
  unfold swapSign
  rw [if_neg]
  simp
  intros
  omega

theorem reorderSign_range (odd : List Bool) (n : Nat) : reorderSign odd (List.range n) = 1 := by
  rw [reorderSign_eq]
  exact pairProd_sorted odd List.pairwise_lt_range

/-- Signs multiply when reorderings are composed. -/
theorem reorderSign_compose (odd : List Bool) {n : Nat} {p q : List Nat} (hp : p.Perm (List.range n))
    (hq : q.Perm (List.range n)) :
    reorderSign odd (q.map fun i => p.getD i 0) =
      reorderSign odd p * reorderSign (p.map fun i => odd.getD i false) q := by
  have hn : p.length = n := by simpa using hp.length_eq
  have hndp : p.Nodup := hp.nodup_iff.2 List.nodup_range
  have hndq : q.Nodup := hq.nodup_iff.2 List.nodup_range
  have hql : ∀ i ∈ q, i < n := fun i hi => by simpa using hq.mem_iff.1 hi
  have hget : ∀ i, i < n → p.idxOf (p.getD i 0) = i := by
    intro i hi
    rw [List.getD_eq_getElem?_getD, List.getElem?_eq_getElem (by omega)]
    exact List.Nodup.idxOf_getElem hndp _ _
  have hinj : ∀ i j, i < n → j < n → p.getD i 0 = p.getD j 0 → i = j := by
    intro i j hi hj h
    rw [← hget i hi, ← hget j hj, h]
  have hperm : (q.map fun i => p.getD i 0).Perm p := by
    have h1 : (q.map fun i => p.getD i 0).Perm ((List.range n).map fun i => p.getD i 0) := hq.map _
    have h2 := pick_range p
    unfold pick at h2
    rw [hn] at h2
    rw [h2] at h1
    exact h1
  have hndc : (q.map fun i => p.getD i 0).Nodup := hperm.nodup_iff.2 hndp
  -- the sign of `q` as a product over pairs of legs
  have e1 : reorderSign (p.map fun i => odd.getD i false) q = pairProd (fun x y =>
      if odd.getD x false && odd.getD y false && decide (p.idxOf y < p.idxOf x) then -1 else 1)
      (q.map fun i => p.getD i 0) := by
    rw [reorderSign_eq, pairProd_map]
    apply pairProd_congr
    have : q.Pairwise fun x y => x ∈ q ∧ y ∈ q := List.pairwise_iff_forall_sublist.2 fun {a b} h =>
      ⟨h.subset (by simp), h.subset (by simp)⟩
    refine this.imp ?_
    rintro x y ⟨hx, hy⟩
    have hx' := hql x hx
    have hy' := hql y hy
    unfold swapSign
    rw [hget x hx', hget y hy']
    have ho : ∀ i, i < n → (p.map fun i => odd.getD i false).getD i false = odd.getD (p.getD i 0) false := by
      intro i hi
      simp [List.getElem?_eq_getElem (show i < p.length by omega)]
    rw [ho x hx', ho y hy']
  rw [e1, reorderSign_eq, reorderSign_eq]
  set s : Nat → Nat → Int := fun x y =>
    swapSign odd x y * (if odd.getD x false && odd.getD y false && decide (p.idxOf y < p.idxOf x) then -1 else 1) with hs
  have hidx : ∀ x ∈ p, ∀ y ∈ p, p.idxOf x = p.idxOf y → x = y := by
    intro x hx y hy h
    exact (List.idxOf_inj hx).1 h
  -- `s` is symmetric, and agrees with `swapSign` on pairs of `p`
  have hsym : ∀ x ∈ p, ∀ y ∈ p, x ≠ y → s x y = s y x := by
    intro x hx y hy hxy
    have h1 : p.idxOf x ≠ p.idxOf y := fun h => hxy (hidx x hx y hy h)
    simp only [hs, swapSign]
    cases odd.getD x false <;> cases odd.getD y false <;> simp
    rcases Nat.lt_or_gt_of_ne hxy with h | h <;> rcases Nat.lt_or_gt_of_ne h1 with h' | h' <;>
      simp [h, h', Nat.lt_asymm h, Nat.lt_asymm h']
  have h1 : pairProd s p = pairProd (swapSign odd) p := by
    apply pairProd_congr
    rw [List.pairwise_iff_getElem]
    intro i j hi hj hij
    have a1 : p.idxOf p[i] = i := List.Nodup.idxOf_getElem hndp _ _
    have a2 : p.idxOf p[j] = j := List.Nodup.idxOf_getElem hndp _ _
    simp only [hs, a1, a2]
    rw [if_neg, mul_one]
    simp
    intros
    omega
  have h2 := pairProd_perm hperm.symm hndp hsym
  rw [h1, hs, pairProd_mul] at h2
  rw [h2]
  have h3 : pairProd (fun x y => if odd.getD x false && odd.getD y false && decide (p.idxOf y < p.idxOf x) then (-1 : Int) else 1)
      (q.map fun i => p.getD i 0) * pairProd (fun x y => if odd.getD x false && odd.getD y false && decide (p.idxOf y < p.idxOf x) then (-1 : Int) else 1)
      (q.map fun i => p.getD i 0) = 1 := by
    rw [← e1]
    exact reorderSign_sq _ _
  rw [mul_assoc, h3, mul_one]

theorem mem_pairwise {l : List α} : l.Pairwise fun x y => x ∈ l ∧ y ∈ l :=
  List.pairwise_iff_forall_sublist.2 fun {_ _} h => ⟨h.subset (by simp), h.subset (by simp)⟩

theorem reorderSign_append (odd : List Bool) (l m : List Nat) (h : ∀ x ∈ l, ∀ y ∈ m, x < y) :
    reorderSign odd (l ++ m) = reorderSign odd l * reorderSign odd m := by
  rw [reorderSign_eq, reorderSign_eq, reorderSign_eq, pairProd_append]
  rw [prod_eq_one' l, mul_one]
  intro x hx
  apply prod_eq_one'
  intro y hy
  unfold swapSign
  rw [if_neg]
  have := h x hx y hy
  simp
  intros
  omega

theorem reorderSign_sorted (odd : List Bool) {l : List Nat} (h : l.Pairwise (· < ·)) : reorderSign odd l = 1 := by
  rw [reorderSign_eq]
  exact pairProd_sorted odd h

theorem reorderSign_congr (o o' : List Bool) (l : List Nat) (h : ∀ i ∈ l, o.getD i false = o'.getD i false) :
    reorderSign o l = reorderSign o' l := by
  rw [reorderSign_eq, reorderSign_eq]
  apply pairProd_congr
  refine mem_pairwise.imp ?_
  rintro x y ⟨hx, hy⟩
  unfold swapSign
  rw [h x hx, h y hy]

theorem reorderSign_shift (o1 o2 : List Bool) (l : List Nat) :
    reorderSign (o1 ++ o2) (l.map (· + o1.length)) = reorderSign o2 l := by
  rw [reorderSign_eq, reorderSign_eq, pairProd_map]
  apply pairProd_congr
  apply List.pairwise_of_forall
  intro x y
  unfold swapSign
  have : ∀ x, (o1 ++ o2).getD (x + o1.length) false = o2.getD x false := by
    intro x
    rw [List.getD_eq_getElem?_getD, List.getElem?_append_right (by omega), List.getD_eq_getElem?_getD]
    simp
  rw [this, this]
  simp

theorem reorderSign_reverse (odd : List Bool) (l : List Nat) (hl : ∀ i ∈ l, i < odd.length) :
    reorderSign odd.reverse (l.reverse.map fun i => odd.length - 1 - i) = reorderSign odd l := by
  rw [reorderSign_eq, reorderSign_eq, pairProd_map, pairProd_reverse]
  apply pairProd_congr
  refine mem_pairwise.imp ?_
  rintro x y ⟨hx, hy⟩
  have hx' := hl x hx
  have hy' := hl y hy
  have hr : ∀ i, i < odd.length → odd.reverse.getD (odd.length - 1 - i) false = odd.getD i false := by
    intro i hi
    rw [List.getD_eq_getElem?_getD, List.getD_eq_getElem?_getD, List.getElem?_reverse (by omega)]
    congr 2
    omega
  unfold swapSign
  rw [hr x hx', hr y hy', Bool.and_comm (odd.getD y false)]
  have : (odd.length - 1 - x < odd.length - 1 - y) ↔ y < x := by omega
  simp only [this]

/-! ### The loop of `compute_phase` -/

theorem neg_one_pow_mul (s p : Nat) : (-1 : Int) ^ (s * p) = if p % 2 = 1 then (-1) ^ s else 1 := by
  split_ifs with h
  · rcases Nat.even_or_odd s with hs | hs
    · rw [(hs.mul_right p).neg_one_pow, hs.neg_one_pow]
    · have hp : Odd p := Nat.odd_iff.2 h
      rw [(hs.mul hp).neg_one_pow, hs.neg_one_pow]
  · have hp : Even p := Nat.even_iff.2 (by omega)
    rw [(hp.mul_left s).neg_one_pow]

/-- Which legs are odd. -/
def odds (plist : List Nat) : List Bool := plist.map fun p => decide (p % 2 = 1)

theorem odds_getD (plist : List Nat) (i : Nat) : (odds plist).getD i false = decide (plist.getD i 0 % 2 = 1) := by
  unfold odds
  simp only [List.getD_eq_getElem?_getD, List.getElem?_map]
  cases plist[i]? <;> simp

theorem neg_one_pow_sum (l : List Nat) (f : Nat → Nat) :
    (-1 : Int) ^ (l.map f).sum = (l.map fun i => if f i % 2 = 1 then (-1 : Int) else 1).prod := by
  induction l with
  | nil => rfl
  | cons x t ih =>
    simp only [List.map_cons, List.sum_cons, pow_add, ih, List.prod_cons]
    congr 1
    have := neg_one_pow_mul 1 (f x)
    rw [one_mul, pow_one] at this
    rw [this]

theorem prod_filter' (l : List α) (p : α → Bool) (f : α → Int) :
    ((l.filter p).map f).prod = (l.map fun x => if p x then f x else 1).prod := by
  induction l with
  | nil => rfl
  | cons x t ih =>
    simp only [List.filter_cons, List.map_cons, List.prod_cons]
    split_ifs
    · simp [ih]
    · simp [ih]

theorem phase_loop (plist : List Nat) (right : Bool) (axes rest c : List Nat) (ph : Int)
    (hp : ((List.range plist.length).filter fun i => i ∉ c).Perm (axes ++ rest)) :
    (axes.foldl (phaseStep plist right) (c, ph)).2 * pairProd (fun x y => if (odds plist).getD x false &&
        (odds plist).getD y false && (if right then decide (x < y) else decide (y < x)) then -1 else 1) rest =
      ph * pairProd (fun x y => if (odds plist).getD x false && (odds plist).getD y false &&
        (if right then decide (x < y) else decide (y < x)) then -1 else 1) (axes ++ rest) := by
  induction axes generalizing c ph with
  | nil => rfl
  | cons x t ih =>
    have hx : x ∈ (List.range plist.length).filter fun i => i ∉ c := hp.mem_iff.2 (by simp)
    have hxn : x < plist.length := by simpa using (List.mem_filter.1 hx).1
    have hnd : (x :: (t ++ rest)).Nodup := (hp.nodup_iff.1 (List.nodup_range.filter _))
    have hxt : x ∉ t ++ rest := (List.nodup_cons.1 hnd).1
    have hp' : ((List.range plist.length).filter fun i => i ∉ c ++ [x]).Perm (t ++ rest) := by
      have h1 : (List.range plist.length).filter (fun i => i ∉ c ++ [x]) =
          ((List.range plist.length).filter fun i => i ∉ c).filter fun i => i ≠ x := by
        rw [List.filter_filter]
        apply List.filter_congr
        intro i _
        simp [Bool.and_comm]
      rw [h1]
      have h2 := hp.filter fun i => decide (i ≠ x)
      have h3 : List.filter (fun i => decide (i ≠ x)) (x :: t ++ rest) = t ++ rest := by
        rw [List.cons_append, List.filter_cons]
        simp only [ne_eq, not_true_eq_false, decide_false, Bool.false_eq_true, if_false]
        rw [List.filter_eq_self]
        intro i hi
        simp
        rintro rfl
        exact hxt hi
      rw [h3] at h2
      exact h2
    rw [List.foldl_cons]
    have hst : phaseStep plist right (c, ph) x = (c ++ [x], (phaseStep plist right (c, ph) x).2) := rfl
    rw [hst, ih (c ++ [x]) _ hp', List.cons_append, pairProd, ← mul_assoc]
    congr 1
    unfold phaseStep
    simp only
    congr 1
    rw [neg_one_pow_mul, neg_one_pow_sum]
    have key : (((if right = true then List.range' (x + 1) (plist.length - (x + 1)) else List.range x).filter fun i =>
        i ∉ c).map fun i => if plist.getD i 0 % 2 = 1 then (-1 : Int) else 1).prod =
        ((t ++ rest).map fun y => if (if right = true then decide (x < y) else decide (y < x)) = true then
          (if plist.getD y 0 % 2 = 1 then (-1 : Int) else 1) else 1).prod := by
      have h1 : (if right = true then List.range' (x + 1) (plist.length - (x + 1)) else List.range x) =
          (List.range plist.length).filter fun y => if right = true then decide (x < y) else decide (y < x) := by
        have hsplit : List.range plist.length = List.range x ++ x :: List.range' (x + 1) (plist.length - (x + 1)) := by
          rw [List.range_eq_range', List.range_eq_range']
          have : plist.length = x + (1 + (plist.length - (x + 1))) := by omega
          conv_lhs => rw [this]
          rw [← List.range'_append_1, Nat.zero_add, Nat.add_comm 1, List.range'_succ]
        rw [hsplit, List.filter_append, List.filter_cons]
        cases right with
        | true =>
          simp only [if_true, lt_irrefl, decide_false, Bool.false_eq_true, if_false]
          rw [List.filter_eq_nil_iff.2, List.nil_append, List.filter_eq_self.2]
          · intro a ha
            simp at ha ⊢; omega
          · intro a ha
            simp at ha ⊢; omega
        | false =>
          simp only [Bool.false_eq_true, if_false, lt_irrefl, decide_false]
          have e1 : (List.range x).filter (fun y => decide (y < x)) = List.range x := List.filter_eq_self.2 (by simp)
          have e2 : (List.range' (x + 1) (plist.length - (x + 1))).filter (fun y => decide (y < x)) = [] :=
            List.filter_eq_nil_iff.2 (by simp; omega)
          rw [e1, e2, List.append_nil]
      rw [h1, List.filter_filter]
      have h2 : (List.range plist.length).filter (fun a => decide (a ∉ c) && (if right = true then decide (x < a) else decide (a < x))) =
          ((List.range plist.length).filter fun i => i ∉ c).filter fun y => if right = true then decide (x < y) else decide (y < x) := by
        rw [List.filter_filter]
        apply List.filter_congr
        intro i _
        rw [Bool.and_comm]
      rw [h2, prod_filter', (hp.map _).prod_eq, List.cons_append, List.map_cons, List.prod_cons]
      have : (if (if right = true then decide (x < x) else decide (x < x)) = true then
          (if plist.getD x 0 % 2 = 1 then (-1 : Int) else 1) else 1) = 1 := by
        cases right <;> simp
      rw [this, one_mul]
    rw [key]
    by_cases ho : plist.getD x 0 % 2 = 1
    · rw [if_pos ho]
      congr 1
      apply List.map_congr_left
      intro y _
      rw [odds_getD, odds_getD]
      generalize plist.getD x 0 % 2 = u at ho
      generalize plist.getD y 0 % 2 = v
      subst ho
      by_cases hy : v = 1 <;> simp [hy]
    · rw [if_neg ho]
      symm
      apply prod_eq_one'
      intro y _
      rw [odds_getD, decide_eq_false ho]
      simp

/-- `compute_phase(..., "left")` is the sign of pulling the axes to the front. -/
theorem computePhase_left (plist axes : List Nat) (hnd : axes.Nodup) (hlt : ∀ i ∈ axes, i < plist.length) :
    computePhase plist axes false = reorderSign (odds plist) (axes ++ SpT.outAxes plist.length axes) := by
  have hp : ((List.range plist.length).filter fun i => i ∉ ([] : List Nat)).Perm (axes ++ SpT.outAxes plist.length axes) := by
    have : (List.range plist.length).filter (fun i => i ∉ ([] : List Nat)) = List.range plist.length := by simp
    rw [this]
    exact (idx_out_perm hnd hlt).symm
  have h := phase_loop plist false axes (SpT.outAxes plist.length axes) [] 1 hp
  rw [one_mul] at h
  simp only [Bool.false_eq_true, if_false] at h
  have h1 : pairProd (swapSign (odds plist)) (SpT.outAxes plist.length axes) = 1 := by
    apply pairProd_sorted
    exact List.pairwise_lt_range.filter _
  rw [reorderSign_eq]
  unfold swapSign at h1 ⊢
  rw [h1, mul_one] at h
  exact h

/-- `compute_phase(..., "right")` is the sign of pulling the axes to the back, the first one last. -/
theorem computePhase_right (plist axes : List Nat) (hnd : axes.Nodup) (hlt : ∀ i ∈ axes, i < plist.length) :
    computePhase plist axes true =
      reorderSign (odds plist) (SpT.outAxes plist.length axes ++ axes.reverse) := by
  have hp : ((List.range plist.length).filter fun i => i ∉ ([] : List Nat)).Perm
      (axes ++ (SpT.outAxes plist.length axes).reverse) := by
    have : (List.range plist.length).filter (fun i => i ∉ ([] : List Nat)) = List.range plist.length := by simp
    rw [this]
    exact (idx_out_perm hnd hlt).symm.trans (List.Perm.append_left _ (List.reverse_perm _).symm)
  have h := phase_loop plist true axes (SpT.outAxes plist.length axes).reverse [] 1 hp
  rw [one_mul] at h
  simp only [if_true] at h
  have hsw : ∀ l : List Nat, pairProd (fun x y => if ((odds plist).getD x false && (odds plist).getD y false &&
      decide (x < y)) = true then (-1 : Int) else 1) l = pairProd (swapSign (odds plist)) l.reverse := by
    intro l
    rw [pairProd_reverse]
    apply pairProd_congr
    apply List.pairwise_of_forall
    intro x y
    unfold swapSign
    rw [Bool.and_comm ((odds plist).getD x false)]
  have h1 : pairProd (swapSign (odds plist)) (SpT.outAxes plist.length axes) = 1 := by
    apply pairProd_sorted
    exact List.pairwise_lt_range.filter _
  rw [hsw, hsw, List.reverse_reverse, List.reverse_append, List.reverse_reverse, h1, mul_one] at h
  rw [reorderSign_eq]
  exact h

/-! ### Meaning in a graded ring -/

theorem graded_perm {R : Type} [Ring R] (odd : List Bool) (e : Nat → R)
    (he : ∀ i j, i ≠ j → e i * e j = if odd.getD i false && odd.getD j false then - (e j * e i) else e j * e i)
    {l m : List Nat} (hp : l.Perm m) (hnd : l.Nodup) :
    (pairProd (swapSign odd) l : R) * (l.map e).prod = (pairProd (swapSign odd) m : R) * (m.map e).prod := by
  induction hp with
  | nil => rfl
  | cons x h ih =>
    rw [List.nodup_cons] at hnd
    have := ih hnd.2
    simp only [pairProd, List.map_cons, List.prod_cons, Int.cast_mul]
    rw [(h.map (swapSign odd x)).prod_eq, mul_assoc, mul_assoc]
    congr 1
    rw [← mul_assoc, ← mul_assoc, Int.cast_comm, Int.cast_comm, mul_assoc, mul_assoc, this]
  | swap x y t =>
    have hxy : y ≠ x := by simp at hnd; tauto
    simp only [pairProd, List.map_cons, List.prod_cons, Int.cast_mul]
    have h1 : ((swapSign odd y x : Int) : R) * (e y * e x) = ((swapSign odd x y : Int) : R) * (e x * e y) := by
      rw [he y x hxy]
      unfold swapSign
      rcases Nat.lt_or_gt_of_ne hxy with h | h <;>
        cases odd.getD x false <;> cases odd.getD y false <;> simp [h, Nat.lt_asymm h]
    have h2 : ∀ (a b c d : Int) (u v w : R), ((a : R) * b * (c * d)) * (u * (v * w)) = ((b * c * d : Int) : R) * ((a * (u * v)) * w) := by
      intro a b c d u v w
      push_cast
      have e1 : (a : R) * b * (c * d) = (b * c * d) * a := by
        have : a * b * (c * d) = b * c * d * a := by ring
        exact_mod_cast congrArg (fun z : Int => (z : R)) this
      rw [e1]
      simp only [mul_assoc]
    rw [h2, h2, h1]
    have : (t.map (swapSign odd y)).prod * (t.map (swapSign odd x)).prod = (t.map (swapSign odd x)).prod * (t.map (swapSign odd y)).prod := mul_comm _ _
    rw [this]
  | trans h1 h2 ih1 ih2 => rw [ih1 hnd, ih2 (h1.nodup_iff.1 hnd)]

end Verif
